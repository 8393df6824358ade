import Verif.MP.LPLemmas
import Verif.MP.Spec

set_option linter.unusedSectionVars false

/-! # Extremal candidates and monotonicity -/

namespace MCT.MP

open MCT.MPSpec

variable {K : Type*} [Field K] [LinearOrder K] [IsStrictOrderedRing K]

theorem lexLt_irrefl (a : List ℕ) : lexLt a a = false := by
  induction a with
  | nil => rfl
  | cons x a ih => simp [lexLt, ih]

theorem lexLt_trans : ∀ {a b c : List ℕ}, lexLt a b = true → lexLt b c = true → lexLt a c = true
  | [], [], _, h, _ => by simp [lexLt] at h
  | [], _ :: _, [], _, h => by simp [lexLt] at h
  | [], _ :: _, _ :: _, _, _ => by simp [lexLt]
  | _ :: _, [], _, h, _ => by simp [lexLt] at h
  | _ :: _, _ :: _, [], _, h => by simp [lexLt] at h
  | x :: a, y :: b, z :: c, h1, h2 => by
    simp only [lexLt, Bool.or_eq_true, decide_eq_true_eq, Bool.and_eq_true] at h1 h2 ⊢
    rcases h1 with h1 | ⟨h1, h1'⟩ <;> rcases h2 with h2 | ⟨h2, h2'⟩
    · left; omega
    · left; omega
    · left; omega
    · right; exact ⟨by omega, lexLt_trans h1' h2'⟩

/-- Componentwise below and different: strictly below in the lexicographic order. -/
theorem lexLt_of_le : ∀ {a b : List ℕ}, a.length = b.length → a ≠ b →
    (∀ i < a.length, a.getD i 0 ≤ b.getD i 0) → lexLt a b = true
  | [], [], _, h, _ => absurd rfl h
  | [], _ :: _, h, _, _ => by simp at h
  | _ :: _, [], h, _, _ => by simp at h
  | x :: a, y :: b, hl, hne, hle => by
    simp only [lexLt, Bool.or_eq_true, decide_eq_true_eq, Bool.and_eq_true]
    have h0 := hle 0 (by simp)
    simp at h0
    by_cases hxy : x = y
    · right
      refine ⟨hxy, lexLt_of_le (by simpa using hl) (by rintro rfl; exact hne (by rw [hxy])) ?_⟩
      intro i hi
      have := hle (i + 1) (by simpa using hi)
      simpa using this
    · left; omega

theorem lexFold_min (ts : List (List ℕ)) (t : List ℕ) :
    (ts.foldl (fun m u => if lexLt u m then u else m) t) ∈ t :: ts ∧
    ∀ u ∈ t :: ts, lexLt u (ts.foldl (fun m u => if lexLt u m then u else m) t) = false := by
  induction ts generalizing t with
  | nil => simp [lexLt_irrefl]
  | cons v ts ih =>
    rw [List.foldl_cons]
    by_cases h : lexLt v t = true
    · rw [if_pos h]
      obtain ⟨h1, h2⟩ := ih v
      refine ⟨List.mem_cons_of_mem _ h1, ?_⟩
      intro u hu
      rcases List.mem_cons.mp hu with rfl | hu
      · by_contra hc
        rw [Bool.not_eq_false] at hc
        have := lexLt_trans h hc
        rw [h2 v (by simp)] at this; exact absurd this (by simp)
      · exact h2 u hu
    · rw [if_neg h]
      obtain ⟨h1, h2⟩ := ih t
      refine ⟨?_, ?_⟩
      · rcases List.mem_cons.mp h1 with h1 | h1
        · exact List.mem_cons.mpr (Or.inl h1)
        · exact List.mem_cons_of_mem _ (List.mem_cons_of_mem _ h1)
      · intro u hu
        rcases List.mem_cons.mp hu with rfl | hu
        · exact h2 u (by simp)
        · rcases List.mem_cons.mp hu with rfl | hu
          · by_contra hc
            rw [Bool.not_eq_false] at hc
            have ht := h2 t (by simp)
            rcases List.mem_cons.mp h1 with e | e
            · rw [e] at hc; exact h hc
            · -- u < fold ≤ t means u < t
              have : lexLt u t = true := by
                set m := ts.foldl (fun m u => if lexLt u m then u else m) t with hm
                -- m = t or m < t
                have hmt : m = t ∨ lexLt m t = true := by
                  clear_value m
                  have gen : ∀ (ts : List (List ℕ)) (t : List ℕ),
                      ts.foldl (fun m u => if lexLt u m then u else m) t = t ∨
                      lexLt (ts.foldl (fun m u => if lexLt u m then u else m) t) t = true := by
                    intro ts
                    induction ts with
                    | nil => intro t; exact Or.inl rfl
                    | cons w ts ih' =>
                      intro t
                      rw [List.foldl_cons]
                      by_cases hw : lexLt w t = true
                      · rw [if_pos hw]
                        rcases ih' w with e | e
                        · right; rw [e]; exact hw
                        · right; exact lexLt_trans e hw
                      · rw [if_neg hw]; exact ih' t
                  rw [hm]; exact gen ts t
                rcases hmt with e | e
                · rwa [e] at hc
                · exact lexLt_trans hc e
              exact h this
          · exact h2 u (List.mem_cons_of_mem _ hu)

theorem lexMin_spec {ts : List (List ℕ)} {m : List ℕ} (h : lexMin ts = some m) :
    m ∈ ts ∧ ∀ u ∈ ts, lexLt u m = false := by
  cases ts with
  | nil => simp [lexMin] at h
  | cons t ts =>
    simp only [lexMin, Option.some.injEq] at h
    rw [← h]; exact lexFold_min ts t

theorem lexFold_max (ts : List (List ℕ)) (t : List ℕ) :
    (ts.foldl (fun m u => if lexLt m u then u else m) t) ∈ t :: ts ∧
    (∀ u ∈ t :: ts, lexLt (ts.foldl (fun m u => if lexLt m u then u else m) t) u = false) ∧
    ((ts.foldl (fun m u => if lexLt m u then u else m) t) = t ∨
      lexLt t (ts.foldl (fun m u => if lexLt m u then u else m) t) = true) := by
  induction ts generalizing t with
  | nil => simp [lexLt_irrefl]
  | cons v ts ih =>
    rw [List.foldl_cons]
    by_cases h : lexLt t v = true
    · rw [if_pos h]
      obtain ⟨h1, h2, h3⟩ := ih v
      refine ⟨List.mem_cons_of_mem _ h1, ?_, ?_⟩
      · intro u hu
        rcases List.mem_cons.mp hu with rfl | hu
        · by_contra hc
          rw [Bool.not_eq_false] at hc
          have := lexLt_trans hc h
          rw [h2 v (by simp)] at this; exact absurd this (by simp)
        · exact h2 u hu
      · rcases h3 with e | e
        · right; rw [e]; exact h
        · right; exact lexLt_trans h e
    · rw [if_neg h]
      obtain ⟨h1, h2, h3⟩ := ih t
      refine ⟨?_, ?_, h3⟩
      · rcases List.mem_cons.mp h1 with h1 | h1
        · exact List.mem_cons.mpr (Or.inl h1)
        · exact List.mem_cons_of_mem _ (List.mem_cons_of_mem _ h1)
      · intro u hu
        rcases List.mem_cons.mp hu with rfl | hu
        · exact h2 u (by simp)
        · rcases List.mem_cons.mp hu with rfl | hu
          · by_contra hc
            rw [Bool.not_eq_false] at hc
            rcases h3 with e | e
            · rw [e] at hc; exact h hc
            · exact h (lexLt_trans e hc)
          · exact h2 u (List.mem_cons_of_mem _ hu)

theorem lexMax_spec {ts : List (List ℕ)} {m : List ℕ} (h : lexMax ts = some m) :
    m ∈ ts ∧ ∀ u ∈ ts, lexLt m u = false := by
  cases ts with
  | nil => simp [lexMax] at h
  | cons t ts =>
    simp only [lexMax, Option.some.injEq] at h
    rw [← h]; exact ⟨(lexFold_max ts t).1, (lexFold_max ts t).2.1⟩

theorem tuple_getD (c : Cand) (i : ℕ) :
    c.tuple.getD i 0 = if i = 0 then c.aBits else c.w (i - 1) := by
  cases i with
  | zero => rfl
  | succ i => simp [Cand.tuple, Cand.w]

theorem tuple_inj {c c' : Cand} (h : c.tuple = c'.tuple) : c = c' := by
  cases c; cases c'
  simp only [Cand.tuple, List.cons.injEq] at h
  simp [h.1, h.2]

/-- All positions where a value occurs. -/
theorem idx_unique {ts : List (List ℕ)} {m : List ℕ} {i : ℕ} (hi : ts[i]? = some m)
    (hu : ∀ j, ts[j]? = some m → j = i) :
    (List.range ts.length).filter (fun i => decide (ts[i]? = some m)) = [i] := by
  have hlt : i < ts.length := (List.getElem?_eq_some_iff.mp hi).1
  have hmem : ∀ j, j ∈ (List.range ts.length).filter (fun i => decide (ts[i]? = some m)) ↔ j = i := by
    intro j
    rw [List.mem_filter, List.mem_range, decide_eq_true_eq]
    constructor
    · rintro ⟨_, h⟩; exact hu j h
    · rintro rfl; exact ⟨hlt, hi⟩
  have hnd : ((List.range ts.length).filter (fun i => decide (ts[i]? = some m))).Nodup :=
    List.Nodup.filter _ List.nodup_range
  generalize (List.range ts.length).filter (fun i => decide (ts[i]? = some m)) = l at hmem hnd
  match l, hmem, hnd with
  | [], hmem, _ => exact absurd ((hmem i).mpr rfl) (by simp)
  | [a], hmem, _ => rw [(hmem a).mp (by simp)]
  | a :: b :: l, hmem, hnd =>
    have e1 := (hmem a).mp (by simp)
    have e2 := (hmem b).mp (by simp)
    rw [e1, e2] at hnd
    simp at hnd

theorem findMin_iff (cands : List Cand) (n : ℕ) (hn : ∀ c ∈ cands, c.wBits.length = n) (i : ℕ) :
    findMin cands = some i ↔ ∃ c, OnlyAt cands i c ∧
      ∀ c' ∈ cands, c.aBits ≤ c'.aBits ∧ ∀ k < n, c.w k ≤ c'.w k := by
  have hget : ∀ (j : ℕ) (t : List ℕ), (cands.map Cand.tuple)[j]? = some t ↔
      ∃ c : Cand, cands[j]? = some c ∧ c.tuple = t := by
    intro j t; rw [List.getElem?_map, Option.map_eq_some_iff]
  unfold findMin
  simp only []
  constructor
  · intro h
    rcases hm : lexMin (cands.map Cand.tuple) with _ | m
    · rw [hm] at h; exact absurd h (by simp)
    · rw [hm] at h
      simp only [] at h
      split_ifs at h with hc
      push Not at hc
      have hmem : i ∈ (List.range (cands.map Cand.tuple).length).filter
          (fun i => decide ((cands.map Cand.tuple)[i]? = some m)) := List.mem_of_mem_head? h
      rw [List.mem_filter, decide_eq_true_eq] at hmem
      obtain ⟨c, hci, hct⟩ := (hget i m).mp hmem.2
      refine ⟨c, ⟨hci, fun j hj => ?_⟩, fun c' hc' => ?_⟩
      · have hjm : j ∈ (List.range (cands.map Cand.tuple).length).filter
            (fun i => decide ((cands.map Cand.tuple)[i]? = some m)) := by
          rw [List.mem_filter, decide_eq_true_eq, List.mem_range]
          have e := (hget j m).mpr ⟨c, hj, hct⟩
          exact ⟨(List.getElem?_eq_some_iff.mp e).1, e⟩
        have himem : i ∈ (List.range (cands.map Cand.tuple).length).filter
            (fun i => decide ((cands.map Cand.tuple)[i]? = some m)) := List.mem_of_mem_head? h
        have hlen := hc.1
        generalize (List.range (cands.map Cand.tuple).length).filter
            (fun i => decide ((cands.map Cand.tuple)[i]? = some m)) = l at hjm himem hlen
        match l, hjm, himem, hlen with
        | [a], hjm, himem, _ => simp at hjm himem; omega
        | _ :: _ :: _, _, _, hlen => simp at hlen
      · have hall := hc.2
        rw [ne_eq, List.any_eq_true] at hall
        push Not at hall
        have hlen : m.length = n + 1 := by
          rw [← hct, Cand.tuple, List.length_cons, hn c (List.mem_of_getElem? hci)]
        have hcomp : ∀ k < n + 1, c.tuple.getD k 0 ≤ c'.tuple.getD k 0 := by
          intro k hk
          have := hall k (List.mem_range.mpr (by omega))
          rw [ne_eq, List.any_eq_true] at this
          push Not at this
          have := this c'.tuple (List.mem_map_of_mem hc')
          rw [ne_eq, decide_eq_true_eq] at this
          rw [hct]; omega
        refine ⟨?_, fun k hk => ?_⟩
        · have := hcomp 0 (by omega); rwa [tuple_getD, tuple_getD] at this
        · have := hcomp (k + 1) (by omega); rwa [tuple_getD, tuple_getD] at this
  · rintro ⟨c, ⟨hci, huniq⟩, hle⟩
    have hcm : c ∈ cands := List.mem_of_getElem? hci
    rcases hm : lexMin (cands.map Cand.tuple) with _ | m
    · cases cands with
      | nil => simp at hcm
      | cons a l => simp [lexMin] at hm
    · obtain ⟨h1, h2⟩ := lexMin_spec hm
      obtain ⟨c', hc', rfl⟩ := List.mem_map.mp h1
      have hcc' : c' = c := by
        by_contra hne
        have : lexLt c.tuple c'.tuple = true := by
          apply lexLt_of_le
          · simp only [Cand.tuple, List.length_cons, hn c hcm, hn c' hc']
          · intro e; exact hne (tuple_inj e).symm
          · intro k hk
            simp only [Cand.tuple, List.length_cons, hn c hcm] at hk
            rw [tuple_getD, tuple_getD]
            split_ifs with h0
            · exact (hle c' hc').1
            · exact (hle c' hc').2 (k - 1) (by omega)
        rw [h2 c.tuple (List.mem_map_of_mem hcm)] at this
        exact absurd this (by simp)
      subst hcc'
      simp only []
      have hidx := idx_unique (ts := cands.map Cand.tuple) (m := c'.tuple) (i := i)
        ((hget i _).mpr ⟨c', hci, rfl⟩) (by
          intro j hj
          obtain ⟨d, hd, hdt⟩ := (hget j _).mp hj
          rw [tuple_inj hdt] at hd
          exact huniq j hd)
      rw [hidx, if_neg]
      · rfl
      · push Not
        refine ⟨by simp, ?_⟩
        rw [ne_eq, List.any_eq_true]
        push Not
        intro k hk
        rw [ne_eq, List.any_eq_true]
        push Not
        intro t ht
        obtain ⟨d, hd, rfl⟩ := List.mem_map.mp ht
        rw [ne_eq, decide_eq_true_eq, not_lt, tuple_getD, tuple_getD]
        have hk := List.mem_range.mp hk
        simp only [Cand.tuple, List.length_cons, hn c' hc'] at hk
        split_ifs with h0
        · exact (hle d hd).1
        · exact (hle d hd).2 (k - 1) (by omega)

theorem findMax_iff (cands : List Cand) (n : ℕ) (hn : ∀ c ∈ cands, c.wBits.length = n) (i : ℕ) :
    findMax cands = some i ↔ ∃ c, OnlyAt cands i c ∧
      ∀ c' ∈ cands, c'.aBits ≤ c.aBits ∧ ∀ k < n, c'.w k ≤ c.w k := by
  have hget : ∀ (j : ℕ) (t : List ℕ), (cands.map Cand.tuple)[j]? = some t ↔
      ∃ c : Cand, cands[j]? = some c ∧ c.tuple = t := by
    intro j t; rw [List.getElem?_map, Option.map_eq_some_iff]
  unfold findMax
  simp only []
  constructor
  · intro h
    rcases hm : lexMax (cands.map Cand.tuple) with _ | m
    · rw [hm] at h; exact absurd h (by simp)
    · rw [hm] at h
      simp only [] at h
      split_ifs at h with hc
      push Not at hc
      have hmem : i ∈ (List.range (cands.map Cand.tuple).length).filter
          (fun i => decide ((cands.map Cand.tuple)[i]? = some m)) := List.mem_of_mem_head? h
      rw [List.mem_filter, decide_eq_true_eq] at hmem
      obtain ⟨c, hci, hct⟩ := (hget i m).mp hmem.2
      refine ⟨c, ⟨hci, fun j hj => ?_⟩, fun c' hc' => ?_⟩
      · have hjm : j ∈ (List.range (cands.map Cand.tuple).length).filter
            (fun i => decide ((cands.map Cand.tuple)[i]? = some m)) := by
          rw [List.mem_filter, decide_eq_true_eq, List.mem_range]
          have e := (hget j m).mpr ⟨c, hj, hct⟩
          exact ⟨(List.getElem?_eq_some_iff.mp e).1, e⟩
        have himem : i ∈ (List.range (cands.map Cand.tuple).length).filter
            (fun i => decide ((cands.map Cand.tuple)[i]? = some m)) := List.mem_of_mem_head? h
        have hlen := hc.1
        generalize (List.range (cands.map Cand.tuple).length).filter
            (fun i => decide ((cands.map Cand.tuple)[i]? = some m)) = l at hjm himem hlen
        match l, hjm, himem, hlen with
        | [a], hjm, himem, _ => simp at hjm himem; omega
        | _ :: _ :: _, _, _, hlen => simp at hlen
      · have hall := hc.2
        rw [ne_eq, List.any_eq_true] at hall
        push Not at hall
        have hlen : m.length = n + 1 := by
          rw [← hct, Cand.tuple, List.length_cons, hn c (List.mem_of_getElem? hci)]
        have hcomp : ∀ k < n + 1, c'.tuple.getD k 0 ≤ c.tuple.getD k 0 := by
          intro k hk
          have := hall k (List.mem_range.mpr (by omega))
          rw [ne_eq, List.any_eq_true] at this
          push Not at this
          have := this c'.tuple (List.mem_map_of_mem hc')
          rw [ne_eq, decide_eq_true_eq] at this
          rw [hct]; omega
        refine ⟨?_, fun k hk => ?_⟩
        · have := hcomp 0 (by omega); rwa [tuple_getD, tuple_getD] at this
        · have := hcomp (k + 1) (by omega); rwa [tuple_getD, tuple_getD] at this
  · rintro ⟨c, ⟨hci, huniq⟩, hle⟩
    have hcm : c ∈ cands := List.mem_of_getElem? hci
    rcases hm : lexMax (cands.map Cand.tuple) with _ | m
    · cases cands with
      | nil => simp at hcm
      | cons a l => simp [lexMax] at hm
    · obtain ⟨h1, h2⟩ := lexMax_spec hm
      obtain ⟨c', hc', rfl⟩ := List.mem_map.mp h1
      have hcc' : c' = c := by
        by_contra hne
        have : lexLt c'.tuple c.tuple = true := by
          apply lexLt_of_le
          · simp only [Cand.tuple, List.length_cons, hn c hcm, hn c' hc']
          · intro e; exact hne (tuple_inj e)
          · intro k hk
            simp only [Cand.tuple, List.length_cons, hn c' hc'] at hk
            rw [tuple_getD, tuple_getD]
            split_ifs with h0
            · exact (hle c' hc').1
            · exact (hle c' hc').2 (k - 1) (by omega)
        rw [h2 c.tuple (List.mem_map_of_mem hcm)] at this
        exact absurd this (by simp)
      subst hcc'
      simp only []
      have hidx := idx_unique (ts := cands.map Cand.tuple) (m := c'.tuple) (i := i)
        ((hget i _).mpr ⟨c', hci, rfl⟩) (by
          intro j hj
          obtain ⟨d, hd, hdt⟩ := (hget j _).mp hj
          rw [tuple_inj hdt] at hd
          exact huniq j hd)
      rw [hidx, if_neg]
      · rfl
      · push Not
        refine ⟨by simp, ?_⟩
        rw [ne_eq, List.any_eq_true]
        push Not
        intro k hk
        rw [ne_eq, List.any_eq_true]
        push Not
        intro t ht
        obtain ⟨d, hd, rfl⟩ := List.mem_map.mp ht
        rw [ne_eq, decide_eq_true_eq, gt_iff_lt, not_lt, tuple_getD, tuple_getD]
        have hk := List.mem_range.mp hk
        simp only [Cand.tuple, List.length_cons, hn c' hc'] at hk
        split_ifs with h0
        · exact (hle d hd).1
        · exact (hle d hd).2 (k - 1) (by omega)

/-! ### Monotonicity in the bits -/

/-- Candidate of a node with at most the bits of another one, in everything the node quantizes. -/
def Node.CandLe (n : Node) (c c' : Cand) : Prop :=
  (n.mode = .quant → c.aBits ≤ c'.aBits) ∧ ∀ k s, n.attrs[k]? = some (s, true) → c.w k ≤ c'.w k

/-- At every configurable node the first configuration selects at most the bits of the second. -/
def Net.BitsLe (net : Net) (cfg cfg' : ℕ → ℕ) : Prop :=
  ∀ i ∈ net.confNodes, ∀ n, net.nodes[i]? = some n →
    ∀ c c', n.cands[cfg i]? = some c → n.cands[cfg' i]? = some c' → n.CandLe c c'

/-- The minimal candidate has at most the bits of every candidate. -/
theorem findMin_le {cs : List Cand} {x : ℕ} (h : findMin cs = some x) :
    ∃ c, cs[x]? = some c ∧ ∀ d ∈ cs, c.aBits ≤ d.aBits ∧ ∀ k, c.w k ≤ d.w k := by
  unfold findMin at h
  simp only [] at h
  rcases hm : lexMin (cs.map Cand.tuple) with _ | m
  · rw [hm] at h; simp at h
  · rw [hm] at h
    simp only [] at h
    split_ifs at h with hc
    push Not at hc
    have hx := List.mem_of_mem_head? h
    rw [List.mem_filter, List.mem_range, decide_eq_true_eq, List.getElem?_map] at hx
    obtain ⟨c, hcx, hct⟩ := Option.map_eq_some_iff.mp hx.2
    have hle : ∀ i < m.length, ∀ d ∈ cs, m.getD i 0 ≤ d.tuple.getD i 0 := by
      intro i hi d hd
      by_contra hlt
      apply hc.2
      rw [List.any_eq_true]
      refine ⟨i, List.mem_range.mpr hi, List.any_eq_true.mpr ⟨d.tuple, List.mem_map_of_mem hd, ?_⟩⟩
      simpa using hlt
    refine ⟨c, hcx, fun d hd => ⟨?_, fun k => ?_⟩⟩
    · have := hle 0 (by rw [← hct]; simp [Cand.tuple]) d hd
      rw [← hct] at this
      simpa [Cand.tuple] using this
    · by_cases hk : k < c.wBits.length
      · have := hle (k + 1) (by rw [← hct]; simp [Cand.tuple]; exact hk) d hd
        rw [← hct] at this
        simpa [Cand.tuple, Cand.w] using this
      · have : c.w k = 0 := by unfold Cand.w; exact List.getD_eq_default _ _ (by omega)
        rw [this]; exact Nat.zero_le _

theorem sumM_mono {α : Type*} {f g : α → Option K} {l : List α} {a b : K}
    (h : ∀ x ∈ l, ∀ u v, f x = some u → g x = some v → u ≤ v)
    (ha : sumM f l = some a) (hb : sumM g l = some b) : a ≤ b := by
  have h1 := sumM_getD f l (by rw [ha]; rfl)
  have h2 := sumM_getD g l (by rw [hb]; rfl)
  rw [ha] at h1; rw [hb] at h2
  injection h1 with h1; injection h2 with h2
  rw [h1, h2]
  apply List.sum_le_sum
  intro x hx
  obtain ⟨u, hu⟩ := Option.isSome_iff_exists.mp
    ((sumM_isSome f l).mp (by rw [ha]; rfl) x hx)
  obtain ⟨v, hv⟩ := Option.isSome_iff_exists.mp
    ((sumM_isSome g l).mp (by rw [hb]; rfl) x hx)
  rw [hu, hv]; exact h x hx u v hu hv

theorem weightBits_mono {net : Net} {cfg cfg' : ℕ → ℕ} (h : net.BitsLe cfg cfg') {i k a b : ℕ}
    (ha : net.weightBits cfg i k = some a) (hb : net.weightBits cfg' i k = some b) : a ≤ b := by
  unfold Net.weightBits at ha hb
  rcases hn : net.nodes[i]? with _ | n
  · rw [hn] at ha; exact absurd ha (by simp)
  · rw [hn] at ha hb
    simp only [] at ha hb
    rcases hk : n.attrs[k]? with _ | ⟨s, q⟩
    · rw [hk] at ha; exact absurd ha (by simp)
    · rw [hk] at ha hb
      simp only [] at ha hb
      by_cases hc : n.conf = true
      · rw [if_pos hc] at ha hb
        rcases e1 : n.cands[cfg i]? with _ | c
        · rw [e1] at ha; exact absurd ha (by simp)
        · rcases e2 : n.cands[cfg' i]? with _ | c'
          · rw [e2] at hb; exact absurd hb (by simp)
          · rw [e1] at ha; rw [e2] at hb
            simp only [Option.some.injEq] at ha hb
            rw [← ha, ← hb]
            split_ifs with hq
            · exact (h i (mem_confNodes.mpr ⟨n, hn, hc⟩) n hn c c' e1 e2).2 k s (by rw [hk, hq])
            · exact le_refl _
      · rw [if_neg hc] at ha hb
        rw [ha] at hb; injection hb with hb; omega

theorem actBits_mono {net : Net} {cfg cfg' : ℕ → ℕ} (h : net.BitsLe cfg cfg') {i a b : ℕ}
    (ha : net.actBits cfg i = some a) (hb : net.actBits cfg' i = some b) : a ≤ b := by
  unfold Net.actBits at ha hb
  rcases hp : net.preserved (net.nodes.length + 1) i with _ | j
  · rw [hp] at ha; exact absurd ha (by simp)
  · rw [hp] at ha hb
    simp only [] at ha hb
    rcases hn : net.nodes[j]? with _ | n
    · rw [hn] at ha; exact absurd ha (by simp)
    · rw [hn] at ha hb
      simp only [] at ha hb
      by_cases hc : n.conf = true
      · rw [if_pos hc] at ha hb
        rcases e1 : n.cands[cfg j]? with _ | c
        · rw [e1] at ha; exact absurd ha (by simp)
        · rcases e2 : n.cands[cfg' j]? with _ | c'
          · rw [e2] at hb; exact absurd hb (by simp)
          · rw [e1] at ha; rw [e2] at hb
            simp only [Option.some.injEq] at ha hb
            rw [← ha, ← hb]
            split_ifs with hq
            · exact (h j (mem_confNodes.mpr ⟨n, hn, hc⟩) n hn c c' e1 e2).1 hq
            · exact le_refl _
      · rw [if_neg hc] at ha hb
        rw [ha] at hb; injection hb with hb; omega

theorem nodeWeights_mono {net : Net} {cfg cfg' : ℕ → ℕ} (h : net.BitsLe cfg cfg') {i : ℕ} {a b : K}
    (ha : net.nodeWeights cfg i = some a) (hb : net.nodeWeights cfg' i = some b) : a ≤ b := by
  unfold Net.nodeWeights at ha hb
  rcases hn : net.nodes[i]? with _ | n
  · rw [hn] at ha; exact absurd ha (by simp)
  · rw [hn] at ha hb
    apply sumM_mono _ ha hb
    intro p _ u v hu hv
    obtain ⟨x, hx, rfl⟩ := Option.map_eq_some_iff.mp hu
    obtain ⟨y, hy, rfl⟩ := Option.map_eq_some_iff.mp hv
    have : (x : K) ≤ (y : K) := by exact_mod_cast weightBits_mono h hx hy
    have hp : (0 : K) ≤ (p.2 : K) := Nat.cast_nonneg _
    have := mul_le_mul_of_nonneg_left this hp
    linarith

theorem weights_mono {net : Net} {cfg cfg' : ℕ → ℕ} (h : net.BitsLe cfg cfg') {a b : K}
    (ha : net.weights cfg = some a) (hb : net.weights cfg' = some b) : a ≤ b :=
  sumM_mono (fun _ _ _ _ hu hv => nodeWeights_mono h hu hv) ha hb

theorem cutUtil_mono {net : Net} {cfg cfg' : ℕ → ℕ} (h : net.BitsLe cfg cfg') {cut : List ℕ} {a b : K}
    (ha : net.cutUtil cfg cut = some a) (hb : net.cutUtil cfg' cut = some b) : a ≤ b := by
  apply sumM_mono _ ha hb
  intro i _ u v hu hv
  unfold Net.nodeAct at hu hv
  rcases hn : net.nodes[i]? with _ | n
  · rw [hn] at hu; exact absurd hu (by simp)
  · rw [hn] at hu hv
    obtain ⟨x, hx, rfl⟩ := Option.map_eq_some_iff.mp hu
    obtain ⟨y, hy, rfl⟩ := Option.map_eq_some_iff.mp hv
    have : (x : K) ≤ (y : K) := by exact_mod_cast actBits_mono h hx hy
    have hp : (0 : K) ≤ (n.actSize : K) := Nat.cast_nonneg _
    have := mul_le_mul_of_nonneg_left this hp
    linarith

theorem bops_mono {net : Net} {cfg cfg' : ℕ → ℕ} (h : net.BitsLe cfg cfg') {a b : K}
    (ha : net.bops cfg = some a) (hb : net.bops cfg' = some b) : a ≤ b := by
  apply sumM_mono _ ha hb
  intro i _ u v hu hv
  unfold Net.nodeBops at hu hv
  rcases hn : net.nodes[i]? with _ | n
  · rw [hn] at hu; exact absurd hu (by simp)
  · rw [hn] at hu hv
    simp only [] at hu hv
    rcases hk : n.kernel with _ | k
    · rw [hk] at hu hv; simp only [Option.some.injEq] at hu hv; rw [← hu, ← hv]
    · rw [hk] at hu hv
      simp only [] at hu hv
      by_cases hz : n.macs = 0
      · rw [if_pos hz] at hu hv; simp only [Option.some.injEq] at hu hv; rw [← hu, ← hv]
      · rw [if_neg hz] at hu hv
        rcases hp : n.prev with _ | ⟨p, _ | ⟨p', ps⟩⟩
        · rw [hp] at hu; exact absurd hu (by simp)
        · rw [hp] at hu hv
          simp only [] at hu hv
          rcases e1 : net.actBits cfg p with _ | x
          · rw [e1] at hu; exact absurd hu (by simp)
          rcases e2 : net.weightBits cfg i k with _ | y
          · rw [e1, e2] at hu; exact absurd hu (by simp)
          rcases e3 : net.actBits cfg' p with _ | x'
          · rw [e3] at hv; exact absurd hv (by simp)
          rcases e4 : net.weightBits cfg' i k with _ | y'
          · rw [e3, e4] at hv; exact absurd hv (by simp)
          rw [e1, e2] at hu; rw [e3, e4] at hv
          simp only [Option.some.injEq] at hu hv
          rw [← hu, ← hv]
          have h1 := actBits_mono h e1 e3
          have h2 := weightBits_mono h e2 e4
          have := Nat.mul_le_mul_right n.macs (Nat.mul_le_mul h1 h2)
          exact_mod_cast this
        · rw [hp] at hu; exact absurd hu (by simp)

theorem forall2_add_le {w w' : K} (hw : w ≤ w') {a b : List K} (h : List.Forall₂ (· ≤ ·) a b) :
    List.Forall₂ (· ≤ ·) (a.map fun x => x + w) (b.map fun x => x + w') := by
  induction h with
  | nil => exact .nil
  | cons e _ ih => exact .cons (by simp only []; linarith) ih

theorem utilVec_mono {net : Net} {cfg cfg' : ℕ → ℕ} (h : net.BitsLe cfg cfg') (t : Target)
    {u v : List K} (hu : net.utilVec cfg t = some u) (hv : net.utilVec cfg' t = some v) :
    List.Forall₂ (· ≤ ·) u v := by
  have hcuts : ∀ {u v : List K}, net.actPerCut cfg = some u → net.actPerCut cfg' = some v →
      List.Forall₂ (· ≤ ·) u v := by
    intro u v hu hv
    unfold Net.actPerCut at hu hv
    rw [Common.mapM_some_iff] at hu hv
    generalize net.usedCuts = L at hu hv
    induction hu generalizing v with
    | nil => cases hv; exact .nil
    | cons e _ ih => cases hv with | cons e' hv' => exact .cons (cutUtil_mono h e e') (ih hv')
  cases t with
  | weights =>
    simp only [Net.utilVec] at hu hv
    obtain ⟨a, ha, rfl⟩ := Option.map_eq_some_iff.mp hu
    obtain ⟨b, hb, rfl⟩ := Option.map_eq_some_iff.mp hv
    exact .cons (weights_mono h ha hb) .nil
  | bops =>
    simp only [Net.utilVec] at hu hv
    obtain ⟨a, ha, rfl⟩ := Option.map_eq_some_iff.mp hu
    obtain ⟨b, hb, rfl⟩ := Option.map_eq_some_iff.mp hv
    exact .cons (bops_mono h ha hb) .nil
  | activation =>
    simp only [Net.utilVec] at hu hv
    obtain ⟨_, _, hu⟩ := Option.bind_eq_some_iff.mp hu
    obtain ⟨_, _, hv⟩ := Option.bind_eq_some_iff.mp hv
    exact hcuts hu hv
  | total =>
    simp only [Net.utilVec] at hu hv
    obtain ⟨_, _, hu⟩ := Option.bind_eq_some_iff.mp hu
    obtain ⟨_, _, hv⟩ := Option.bind_eq_some_iff.mp hv
    obtain ⟨w, hw, hu⟩ := Option.bind_eq_some_iff.mp hu
    obtain ⟨w', hw', hv⟩ := Option.bind_eq_some_iff.mp hv
    obtain ⟨a, ha, rfl⟩ := Option.map_eq_some_iff.mp hu
    obtain ⟨b, hb, rfl⟩ := Option.map_eq_some_iff.mp hv
    have := hcuts ha hb
    have hww := weights_mono h hw hw'
    exact forall2_add_le hww this

end MCT.MP
