import Verif.MaxCut.Lemmas
import Mathlib.Data.List.Perm.Subperm

/-! The search: invariants of the open list, complete orders, pivots. -/

set_option linter.unusedSectionVars false

namespace MCT.MaxCut
open MCT.MaxCutSpec (WF)

variable {K : Type} [Field K] [LinearOrder K] [IsStrictOrderedRing K]

/-- `c` is the largest step memory of an order. -/
def PeakX (g : MemGraph K) (l : List Op) (c : K) : Prop :=
  (∀ pre x post, l = pre ++ x :: post → stepMem g pre x ≤ c) ∧ ∃ pre x post, l = pre ++ x :: post ∧ c = stepMem g pre x

theorem PeakX.snoc {g : MemGraph K} {l : List Op} {c : K} (h : PeakX g l c) (o : Op) :
    PeakX g (l ++ [o]) (max c (stepMem g l o)) := by
  constructor
  · intro pre x post hl
    rcases List.eq_nil_or_concat post with rfl | ⟨post', y, rfl⟩
    · have := List.append_inj' hl (by simp)
      simp only [List.cons.injEq, and_true] at this
      obtain ⟨rfl, rfl⟩ := this
      exact le_max_right _ _
    · rw [List.concat_eq_append, ← List.cons_append, ← List.append_assoc] at hl
      have := List.append_inj' hl (by simp)
      exact (h.1 pre x post' this.1).trans (le_max_left _ _)
  · rcases max_choice c (stepMem g l o) with hm | hm
    · obtain ⟨pre, x, post, h1, h2⟩ := h.2
      exact ⟨pre, x, post ++ [o], by rw [h1]; simp, by rw [hm, h2]⟩
    · exact ⟨l, o, [], rfl, hm⟩

/-- Invariant of the elements of the open list. -/
structure EntryInv (g : MemGraph K) (e : Entry K) : Prop where
  cut : ∃ pre x, CutInv g e.cut pre x
  peak : PeakX g e.cut.order e.cost
  len : e.route.length = e.cut.order.length
  route : ∀ pre x post, e.cut.order = pre ++ x :: post → ∃ c ∈ e.route, CutInv g c pre x

theorem stepMem_src (g : MemGraph K) : stepMem g [] .src = 0 := by
  unfold stepMem
  apply List.sum_eq_zero
  intro a ha
  obtain ⟨t, ht, rfl⟩ := List.mem_map.1 ha
  rw [List.mem_filter, decide_eq_true_eq] at ht
  obtain ⟨q, hq, hqt⟩ := ht.2.1
  simp only [List.nil_append, List.mem_singleton] at hq
  subst hq
  simp only [MemGraph.outsOf, List.mem_singleton] at hqt
  subst hqt; rfl

theorem srcCut_inv (g : MemGraph K) : CutInv g (srcCut : Cut K) [] .src where
  order := rfl
  valid := by
    have := (Valid.nil g).snoc (o := .src) trivial (by simp) (by intro t ht; simp [needs] at ht)
    simpa [srcCut] using this
  nodup := by simp [srcCut]
  mem := by
    intro t
    simp only [srcCut, List.mem_singleton, LiveX, List.nil_append, exists_eq_left, MemGraph.outsOf]
    exact ⟨fun h => ⟨h, .inl h⟩, fun h => h.1⟩
  total := by simp [srcCut, MemGraph.sizeOf]

theorem start_inv (g : MemGraph K) : EntryInv g (⟨srcCut, 0, [srcCut]⟩ : Entry K) where
  cut := ⟨[], .src, srcCut_inv g⟩
  peak := by
    constructor
    · intro pre x post h
      have h : [Op.src] = pre ++ x :: post := h
      cases pre with
      | nil => simp at h; obtain ⟨rfl, rfl⟩ := h; rw [stepMem_src]
      | cons a l => simp at h
    · exact ⟨[], .src, [], rfl, (stepMem_src g).symm⟩
  len := rfl
  route := by
    intro pre x post h
    have h : [Op.src] = pre ++ x :: post := h
    cases pre with
    | nil => simp at h; obtain ⟨rfl, rfl⟩ := h; exact ⟨srcCut, by simp, srcCut_inv g⟩
    | cons a l => simp at h

theorem new_inv {g : MemGraph K} (hg : WF g) {e : Entry K} (h : EntryInv g e) {c : Cut K}
    (hc : c ∈ expand g e.cut) :
    ∃ o, o ∈ candidates g (clean g e.cut) ∧ c.order = e.cut.order ++ [o] ∧
      EntryInv g ⟨c, max e.cost c.total, c :: e.route⟩ := by
  obtain ⟨pre, x, hcut⟩ := h.cut
  obtain ⟨o, hi, ho⟩ := expand_inv hg hcut hc
  refine ⟨o, ho, hi.order, ⟨e.cut.order, o, hi⟩, ?_, ?_, ?_⟩
  · simp only [hi.order, hi.total_eq]
    exact h.peak.snoc o
  · simp [h.len, hi.order]
  · intro pre' x' post hl
    simp only [hi.order] at hl
    rcases List.eq_nil_or_concat post with rfl | ⟨post', y, rfl⟩
    · have := List.append_inj' hl (by simp)
      simp only [List.cons.injEq, and_true] at this
      obtain ⟨rfl, rfl⟩ := this
      exact ⟨c, by simp, hi⟩
    · rw [List.concat_eq_append, ← List.cons_append, ← List.append_assoc] at hl
      have := List.append_inj' hl (by simp)
      obtain ⟨c', hc', hi'⟩ := h.route pre' x' post' this.1
      exact ⟨c', by simp [hc'], hi'⟩

/-- `pick` returns an element of the list. -/
def Picks (pick : ℕ → List (Entry K) → Option (ℕ × Entry K)) : Prop :=
  ∀ k l i e, pick k l = some (i, e) → l[i]? = some e

theorem search_inv {g : MemGraph K} (hg : WF g) {pick} (hp : Picks pick) : ∀ (fuel k : ℕ) (l : List (Entry K)),
    (∀ e ∈ l, EntryInv g e) → ∀ e, search g pick fuel k l = some e → EntryInv g e ∧ isTarget e.cut = true
  | 0, k, l, _, e, h => by simp [search] at h
  | fuel + 1, k, l, hl, e, h => by
    unfold search at h
    split at h
    · simp at h
    · rename_i i e0 hpk
      have he0 : EntryInv g e0 := hl e0 (List.mem_of_getElem? (hp _ _ _ _ hpk))
      split at h
      · rename_i ht
        simp only [Option.some.injEq] at h; subst h
        exact ⟨he0, ht⟩
      · refine search_inv hg hp fuel (k + 1) _ ?_ e h
        intro e' he'
        rcases List.mem_append.1 he' with he' | he'
        · split at he'
          · simp at he'
          · exact hl e' (List.mem_of_mem_eraseIdx he')
        · obtain ⟨c, hc, rfl⟩ := List.mem_map.1 he'
          exact (new_inv hg he0 hc).choose_spec.2.2

/-! ### Complete orders -/

/-- All operations. -/
def allOps (g : MemGraph K) : List Op := .src :: .tgt :: .tgt2 :: (List.range g.n).map Op.real

theorem mem_allOps {g : MemGraph K} {o : Op} : o ∈ allOps g ↔ IsOp g o := by
  cases o <;> simp [allOps, IsOp]

theorem allOps_nodup (g : MemGraph K) : (allOps g).Nodup := by
  have : ((List.range g.n).map Op.real).Nodup :=
    List.nodup_range.map (fun a b h => by simpa using h)
  simp [allOps, this]

theorem allOps_length (g : MemGraph K) : (allOps g).length = g.n + 3 := by simp [allOps]

theorem valid_length {g : MemGraph K} {l : List Op} (h : Valid g l) : l.length ≤ g.n + 3 := by
  rw [← allOps_length g]
  exact (h.nodup.subperm (fun o ho => mem_allOps.2 (h.isOp ho))).length_le

theorem complete_of_length {g : MemGraph K} {l : List Op} (h : Valid g l) (hl : l.length = g.n + 3) :
    ∀ o, IsOp g o → o ∈ l := by
  have hs := h.nodup.subperm (fun o ho => mem_allOps.2 (h.isOp ho))
  have := hs.perm_of_length_le (by rw [allOps_length, hl])
  intro o ho
  exact this.mem_iff.2 (mem_allOps.2 ho)

/-- If all model outputs have been written, all operations have run. -/
theorem all_run {g : MemGraph K} (hg : WF g) {l : List Op} (hv : Valid g l)
    (hs : ∀ t ∈ g.sinks, ∃ q ∈ l, Ten.real t ∈ g.outsOf q) : ∀ i < g.n, Op.real i ∈ l := by
  have : ∀ k, ∀ i, i < g.n → g.n - i ≤ k → Op.real i ∈ l := by
    intro k
    induction k with
    | zero => intro i hi hk; omega
    | succ k ih =>
      intro i hi hk
      obtain ⟨t, ht⟩ := List.exists_mem_of_ne_nil _ (hg.outs i hi)
      have hout : Ten.real t ∈ g.outsOf (.real i) := by simp [MemGraph.outsOf, ht]
      by_cases hsk : t ∈ g.sinks
      · obtain ⟨q, hq, hqt⟩ := hs t hsk
        rw [← producer_unique hg (hv.isOp hq) (show IsOp g (.real i) from hi) hqt hout]
        exact hq
      · have : ∃ c < g.n, t ∈ g.ins c := by
          by_contra hc
          push Not at hc
          exact hsk (mem_sinks.2 ⟨⟨i, hi, ht⟩, hc⟩)
        obtain ⟨c, hc, htc⟩ := this
        obtain ⟨j, hj, htj⟩ := hg.ins c hc t htc
        have hji := hg.single j (by omega) i hi t htj ht
        subst hji
        have hcl := ih c hc (by omega)
        obtain ⟨a, b, rfl⟩ := List.append_of_mem hcl
        obtain ⟨q, hq, hqt⟩ := (hv a (.real c) b rfl).2.2 (.real t) (by
          have : g.ins c ≠ [] := List.ne_nil_of_mem htc
          simp [needs, this, htc])
        have := producer_unique hg (hv.isOp (by simp [hq])) (show IsOp g (.real j) from hi) hqt hout
        rw [← this]; simp [hq]
  intro i hi
  exact this (g.n - i) i hi le_rfl

/-- An order with the second dummy target is a schedule between dummies. -/
theorem complete_form {g : MemGraph K} (hg : WF g) {l : List Op} (hv : Valid g l) (h : Op.tgt2 ∈ l) :
    ∃ σ : List ℕ, l = (.src :: σ.map Op.real) ++ [.tgt, .tgt2] ∧ σ.Perm (List.range g.n) := by
  obtain ⟨A, B, rfl⟩ := List.append_of_mem h
  have h2 := hv A .tgt2 B rfl
  obtain ⟨q, hq, hqt⟩ := h2.2.2 .tgtT (by simp [needs])
  have hqe : q = .tgt := producer_unique hg (hv.isOp (by simp [hq])) (b := .tgt) trivial hqt (by simp [MemGraph.outsOf])
  subst hqe
  obtain ⟨A1, A2, rfl⟩ := List.append_of_mem hq
  have h1 := hv A1 .tgt (A2 ++ .tgt2 :: B) (by simp)
  have hv1 : Valid g A1 := by
    have : Valid g (A1 ++ (.tgt :: A2 ++ .tgt2 :: B)) := by simpa using hv
    exact this.prefix
  have hreal := all_run hg hv1 (by
    intro t ht
    exact h1.2.2 (.real t) (by simp [needs, ht]))
  have hne : A1 ≠ [] := List.ne_nil_of_mem (hreal 0 hg.pos)
  have hsrc := src_mem hg hv1 hne
  have hA2 : A2 = [] := by
    rw [List.eq_nil_iff_forall_not_mem]
    intro o ho
    obtain ⟨C, D, rfl⟩ := List.append_of_mem ho
    have h3 := hv (A1 ++ .tgt :: C) o (D ++ .tgt2 :: B) (by simp)
    cases o with
    | src => exact h3.2.1 (by simp [hsrc])
    | real i => exact h3.2.1 (by simp [hreal i h3.1])
    | tgt => exact h3.2.1 (by simp)
    | tgt2 => exact h2.2.1 (by simp)
  subst hA2
  have hB : B = [] := by
    rw [List.eq_nil_iff_forall_not_mem]
    intro o ho
    obtain ⟨C, D, rfl⟩ := List.append_of_mem ho
    have h3 := hv (A1 ++ [.tgt] ++ .tgt2 :: C) o D (by simp)
    cases o with
    | src => exact h3.2.1 (by simp [hsrc])
    | real i => exact h3.2.1 (by simp [hreal i h3.1])
    | tgt => exact h3.2.1 (by simp)
    | tgt2 => exact h3.2.1 (by simp)
  subst hB
  cases A1 with
  | nil => exact absurd rfl hne
  | cons a A =>
    have hae := src_first hg hv1; subst hae
    have hA : ∀ o ∈ A, ∃ i, o = Op.real i := by
      intro o ho
      cases o with
      | real i => exact ⟨i, rfl⟩
      | src =>
        have := hv1.nodup
        rw [List.nodup_cons] at this
        exact absurd ho this.1
      | tgt => exact absurd (List.mem_cons_of_mem _ ho) h1.2.1
      | tgt2 => exact absurd (by simp [ho]) h2.2.1
    have hσ : ∃ σ : List ℕ, A = σ.map Op.real := by
      clear hv h h2 hq hqt h1 hv1 hreal hne hsrc
      induction A with
      | nil => exact ⟨[], rfl⟩
      | cons o A ih =>
        obtain ⟨i, rfl⟩ := hA o (by simp)
        obtain ⟨σ, rfl⟩ := ih (fun o ho => hA o (by simp [ho]))
        exact ⟨i :: σ, rfl⟩
    obtain ⟨σ, rfl⟩ := hσ
    refine ⟨σ, by simp, ?_⟩
    have hn : (σ.map Op.real).Nodup := (List.nodup_cons.1 hv1.nodup).2
    rw [List.perm_ext_iff_of_nodup (hn.of_map) List.nodup_range]
    intro i
    rw [List.mem_range]
    constructor
    · intro hi; exact hv1.isOp (o := .real i) (by simp [hi])
    · intro hi; have := hreal i hi; simpa using this

theorem isTarget_tgt2 {g : MemGraph K} {c : Cut K} {pre : List Op} {x : Op} (h : CutInv g c pre x)
    (ht : isTarget c = true) : Op.tgt2 ∈ c.order := by
  simp only [isTarget, Bool.and_eq_true, decide_eq_true_eq] at ht
  obtain ⟨q, hq, hqt⟩ := ((h.mem .tgtT2).1 ht.2).1
  rw [← h.order] at hq
  cases q <;> simp [MemGraph.outsOf] at hqt
  exact hq

/-- A complete order is recognized as target. -/
theorem complete_target {g : MemGraph K} (hg : WF g) {c : Cut K} {pre : List Op} {x : Op} (h : CutInv g c pre x)
    (hc : Op.tgt2 ∈ c.order) : isTarget c = true := by
  obtain ⟨σ, hσ, hp⟩ := complete_form hg h.valid hc
  have hpx : pre = (.src :: σ.map Op.real) ++ [.tgt] ∧ x = .tgt2 := by
    have h1 := h.order
    rw [hσ] at h1
    have h2 : (Op.src :: σ.map Op.real) ++ [.tgt] ++ [Op.tgt2] = pre ++ [x] := by simpa using h1
    have := List.append_inj' h2 (by simp)
    simp only [List.cons.injEq, and_true] at this
    exact ⟨this.1.symm, this.2.symm⟩
  obtain ⟨rfl, rfl⟩ := hpx
  simp only [isTarget, Bool.and_eq_true, List.all_eq_true, decide_eq_true_eq, h.mem]
  refine ⟨⟨?_, ?_⟩, ?_⟩
  · rintro t ⟨_, h1 | ⟨o, ho, hno⟩⟩
    · right; simpa [MemGraph.outsOf] using h1
    · left
      obtain ⟨hop, hneed⟩ := mem_children.1 ho
      cases o with
      | src => exact absurd (by simp) hno
      | real i =>
        exfalso; apply hno
        have : i ∈ σ := hp.mem_iff.2 (List.mem_range.2 hop)
        simp [this]
      | tgt => exact absurd (by simp) hno
      | tgt2 => simpa [needs] using hneed
  · exact ⟨⟨.tgt, by simp, by simp [MemGraph.outsOf]⟩,
      .inr ⟨.tgt2, by simp [MemGraph.children], by simp⟩⟩
  · exact ⟨⟨.tgt2, by simp, by simp [MemGraph.outsOf]⟩, .inl (by simp [MemGraph.outsOf])⟩

/-- Until the order is complete, some operation can run next. -/
theorem progress {g : MemGraph K} (hg : WF g) {l : List Op} (hv : Valid g l) (hne : l ≠ [])
    (h : Op.tgt2 ∉ l) : ∃ o, IsOp g o ∧ o ∉ l ∧ Ready g l o := by
  have hsrc := src_mem hg hv hne
  by_cases hall : ∀ i < g.n, Op.real i ∈ l
  · by_cases ht : Op.tgt ∈ l
    · refine ⟨.tgt2, trivial, h, ?_⟩
      intro t htn
      simp only [needs, List.mem_singleton] at htn; subst htn
      exact ⟨.tgt, ht, by simp [MemGraph.outsOf]⟩
    · refine ⟨.tgt, trivial, ht, ?_⟩
      intro t htn
      simp only [needs, List.mem_map] at htn
      obtain ⟨s, hs, rfl⟩ := htn
      obtain ⟨⟨i, hi, hti⟩, _⟩ := mem_sinks.1 hs
      exact ⟨.real i, hall i hi, by simp [MemGraph.outsOf, hti]⟩
  · push Not at hall
    have hmin := Nat.find_spec (p := fun i => i < g.n ∧ Op.real i ∉ l) hall
    have hless := fun j => Nat.find_min (p := fun i => i < g.n ∧ Op.real i ∉ l) hall (m := j)
    generalize Nat.find (p := fun i => i < g.n ∧ Op.real i ∉ l) hall = i at hmin hless
    refine ⟨.real i, hmin.1, hmin.2, ?_⟩
    intro t ht
    simp only [needs] at ht
    by_cases hi : (g.ins i).isEmpty = true
    · rw [if_pos hi, List.mem_singleton] at ht
      subst ht
      exact ⟨.src, hsrc, by simp [MemGraph.outsOf]⟩
    · rw [if_neg hi, List.mem_map] at ht
      obtain ⟨s, hs, rfl⟩ := ht
      obtain ⟨j, hj, hsj⟩ := hg.ins i hmin.1 s hs
      have : Op.real j ∈ l := by
        by_contra hc
        exact hless j hj ⟨by omega, hc⟩
      exact ⟨.real j, this, by simp [MemGraph.outsOf, hsj]⟩

/-! ### Budget -/

theorem search_none {g : MemGraph K} (hg : WF g) {pick} (hp : Picks pick) : ∀ (fuel k : ℕ) (l : List (Entry K)),
    (∀ e ∈ l, EntryInv g e ∧ e.cut.order.length ≤ k + 1) → k + fuel ≤ g.n + 2 →
    search g pick fuel k l = none
  | 0, k, l, _, _ => rfl
  | fuel + 1, k, l, hl, hk => by
    unfold search
    split
    · rfl
    · rename_i i e0 hpk
      obtain ⟨he0, hlen⟩ := hl e0 (List.mem_of_getElem? (hp _ _ _ _ hpk))
      obtain ⟨pre, x, hcut⟩ := he0.cut
      have hnt : ¬ isTarget e0.cut = true := by
        intro ht
        obtain ⟨σ, hσ, hperm⟩ := complete_form hg hcut.valid (isTarget_tgt2 hcut ht)
        have h3 : σ.length = g.n := by have := hperm.length_eq; simpa using this
        have h4 : e0.cut.order.length = g.n + 3 := by rw [hσ]; simp [h3]
        omega
      rw [if_neg hnt]
      refine search_none hg hp fuel (k + 1) _ ?_ (by omega)
      intro e' he'
      rcases List.mem_append.1 he' with he' | he'
      · split at he'
        · simp at he'
        · have := hl e' (List.mem_of_mem_eraseIdx he')
          exact ⟨this.1, by omega⟩
      · obtain ⟨c, hc, rfl⟩ := List.mem_map.1 he'
        obtain ⟨o, _, ho2, ho3⟩ := new_inv hg he0 hc
        refine ⟨ho3, ?_⟩
        simp only [ho2, List.length_append, List.length_singleton]; omega

/-- With an estimate no cost exceeds, the search goes straight down and needs one expansion per operation. -/
theorem search_found {g : MemGraph K} (hg : WF g) {est : K} {pick} (hp : MaxCutSpec.Chooses est pick)
    (hcost : ∀ e, EntryInv g e → e.cost ≤ est) : ∀ (fuel k : ℕ) (l : List (Entry K)),
    (∀ e ∈ l, EntryInv g e ∧ e.cut.order.length ≤ k + 1) → (∃ e ∈ l, e.cut.order.length = k + 1) →
    g.n + 2 < k + fuel → k ≤ g.n + 2 → ∃ e, search g pick fuel k l = some e
  | 0, k, l, _, _, h, h' => by omega
  | fuel + 1, k, l, hl, ⟨e1, he1, hlen1⟩, hk, hk' => by
    unfold search
    obtain ⟨i, e0, hpk, hmem, hmin⟩ := (hp k l).2 (List.ne_nil_of_mem he1)
    have he0m : e0 ∈ l := List.mem_of_getElem? hmem
    obtain ⟨he0, hlen0⟩ := hl e0 he0m
    have hlen : e0.cut.order.length = k + 1 := by
      have h1 : max e0.cost est = est := max_eq_right (hcost e0 he0)
      have h2 : max e1.cost est = est := max_eq_right (hcost e1 (hl e1 he1).1)
      rcases hmin e1 he1 with h | ⟨_, h⟩
      · rw [h1, h2] at h; exact absurd h (lt_irrefl _)
      · rw [he0.len, (hl e1 he1).1.len] at h; omega
    rw [hpk]
    simp only
    obtain ⟨pre, x, hcut⟩ := he0.cut
    by_cases ht : isTarget e0.cut = true
    · exact ⟨e0, by rw [if_pos ht]⟩
    · rw [if_neg ht]
      have hnt2 : Op.tgt2 ∉ e0.cut.order := fun h => ht (complete_target hg hcut h)
      have hkn : k < g.n + 2 := by
        by_contra hc
        have : e0.cut.order.length = g.n + 3 := by omega
        exact hnt2 (complete_of_length hcut.valid this .tgt2 trivial)
      obtain ⟨o, ho⟩ := progress hg hcut.valid (by rw [hcut.order]; simp) hnt2
      have hcand := (candidates_iff hg hcut o).2 ho
      obtain ⟨c, hc, hco⟩ := expand_complete (c := e0.cut) hcand
      refine search_found hg hp hcost fuel (k + 1) _ ?_ ⟨⟨c, max e0.cost c.total, c :: e0.route⟩, ?_, ?_⟩
        (by omega) (by omega)
      · intro e' he'
        rcases List.mem_append.1 he' with he' | he'
        · split at he'
          · simp at he'
          · have := hl e' (List.mem_of_mem_eraseIdx he')
            exact ⟨this.1, by omega⟩
        · obtain ⟨c, hc, rfl⟩ := List.mem_map.1 he'
          obtain ⟨o, _, ho2, ho3⟩ := new_inv hg he0 hc
          refine ⟨ho3, ?_⟩
          simp only [ho2, List.length_append, List.length_singleton]; omega
      · exact List.mem_append_right _ (List.mem_map.2 ⟨c, hc, rfl⟩)
      · simp only [hco, List.length_append, List.length_singleton, hlen]

/-! ### Pivots -/

theorem isPivot_spec {g : MemGraph K} {c : Cut K} {pre : List Op} {x : Op} (h : CutInv g c pre x)
    (hp : isPivot g c = true) : ∃ p, IsOp g p ∧ (∃ t, t ∈ g.outsOf p ∧ LiveC g c.order t) ∧
      ∀ t, LiveC g c.order t → ∀ q, IsOp g q → t ∈ g.outsOf q → q = p := by
  simp only [isPivot, decide_eq_true_eq] at hp
  obtain ⟨p, hp⟩ := List.length_eq_one_iff.1 hp
  have hmem : ∀ q, q ∈ (clean g c).mem.flatMap g.producers ↔ q = p := by
    intro q
    rw [← List.mem_dedup, hp, List.mem_singleton]
  have hpm := (hmem p).2 rfl
  rw [List.mem_flatMap] at hpm
  obtain ⟨t, ht, hpt⟩ := hpm
  rw [mem_clean h] at ht
  obtain ⟨hop, hout⟩ := mem_producers.1 hpt
  refine ⟨p, hop, ⟨t, hout, ht⟩, ?_⟩
  intro s hs q hq hqs
  rw [← hmem q, List.mem_flatMap]
  exact ⟨s, (mem_clean h s).2 hs, mem_producers.2 ⟨hq, hqs⟩⟩

/-- Every operation but the last dummy writes a tensor that another operation reads. -/
theorem has_child {g : MemGraph K} (hg : WF g) {o : Op} (ho : IsOp g o) (hne : o ≠ .tgt2) :
    ∃ t ∈ g.outsOf o, ∃ y ∈ g.children t, y ≠ o := by
  cases o with
  | src =>
    -- the first operation reads nothing
    have h0 : g.ins 0 = [] := by
      rw [List.eq_nil_iff_forall_not_mem]
      intro t ht
      obtain ⟨i, hi, _⟩ := hg.ins 0 hg.pos t ht
      omega
    exact ⟨.srcT, by simp [MemGraph.outsOf], .real 0,
      mem_children.2 ⟨hg.pos, by simp [needs, h0]⟩, by simp⟩
  | real i =>
    obtain ⟨t, ht⟩ := List.exists_mem_of_ne_nil _ (hg.outs i ho)
    refine ⟨.real t, by simp [MemGraph.outsOf, ht], ?_⟩
    by_cases hc : ∃ c < g.n, t ∈ g.ins c
    · obtain ⟨c, hc, htc⟩ := hc
      have hne : g.ins c ≠ [] := List.ne_nil_of_mem htc
      refine ⟨.real c, mem_children.2 ⟨hc, by simp [needs, hne, htc]⟩, ?_⟩
      intro he
      simp only [Op.real.injEq] at he; subst he
      obtain ⟨j, hj, htj⟩ := hg.ins c hc t htc
      have := hg.single j (by omega) c ho t htj ht
      omega
    · push Not at hc
      refine ⟨.tgt, mem_children.2 ⟨trivial, ?_⟩, by simp⟩
      simp only [needs, List.mem_map, Ten.real.injEq, exists_eq_right]
      exact mem_sinks.2 ⟨⟨i, ho, ht⟩, hc⟩
  | tgt => exact ⟨.tgtT, by simp [MemGraph.outsOf], .tgt2, by simp [MemGraph.children], by simp⟩
  | tgt2 => exact absurd rfl hne

/-- All orders pass a pivot: a complete order has a prefix with the operations of the pivot. -/
theorem pivot_prefix {g : MemGraph K} (hg : WF g) {c : Cut K} {pre : List Op} {x : Op} (h : CutInv g c pre x)
    (hp : isPivot g c = true) (hnt : Op.tgt2 ∉ c.order) {l : List Op} (hv : Valid g l)
    (hl : ∀ o, IsOp g o → o ∈ l) : ∃ a b, l = a ++ b ∧ ∀ o, o ∈ a ↔ o ∈ c.order := by
  obtain ⟨p, hop, ⟨t0, ht0, hlive0⟩, huniq⟩ := isPivot_spec h hp
  have hpc : p ∈ c.order := by
    obtain ⟨q, hq, hqt⟩ := hlive0.1
    rw [producer_unique hg hop (h.valid.isOp hq) ht0 hqt]; exact hq
  obtain ⟨a, b, rfl⟩ := List.append_of_mem (hl p hop)
  have hnd := hv.nodup
  -- members of the pivot come no later than `p`
  have hsub : ∀ o ∈ c.order, o ∈ a ++ [p] := by
    have : ∀ (k : ℕ) (A : List Op) (o : Op) (B : List Op), B.length = k → c.order = A ++ o :: B →
        o ∈ a ++ [p] := by
      intro k
      induction k using Nat.strong_induction_on with
      | _ k ih =>
        intro A o B hk hco
        by_cases hop' : o = p
        · subst hop'; simp
        · have hoc : o ∈ c.order := by rw [hco]; simp
          have hoO := h.valid.isOp hoc
          have hon : o ≠ .tgt2 := by rintro rfl; exact hnt hoc
          obtain ⟨t, ht, y, hy, hyo⟩ := has_child hg hoO hon
          -- all readers of `t` have run
          have hyc : y ∈ c.order := by
            by_contra hyc
            exact hop' (huniq t ⟨⟨o, hoc, ht⟩, y, hy, hyc⟩ o hoO ht)
          obtain ⟨hyO, hyn⟩ := mem_children.1 hy
          -- `y` runs after `o` in the pivot
          have hyB : y ∈ B := by
            by_contra hyB
            have hyA : y ∈ A := by
              rw [hco] at hyc
              simp only [List.mem_append, List.mem_cons] at hyc
              rcases hyc with hyc | hyc | hyc
              · exact hyc
              · exact absurd hyc hyo
              · exact absurd hyc hyB
            obtain ⟨A1, A2, rfl⟩ := List.append_of_mem hyA
            obtain ⟨q, hq, hqt⟩ := (h.valid A1 y (A2 ++ o :: B) (by rw [hco]; simp)).2.2 t hyn
            have hqo : q = o := producer_unique hg (h.valid.isOp (by rw [hco]; simp [hq])) hoO hqt ht
            subst hqo
            have hn := h.valid.nodup
            rw [hco, List.nodup_append] at hn
            exact hn.2.2 q (by simp [hq]) q (by simp) rfl
          obtain ⟨B1, B2, rfl⟩ := List.append_of_mem hyB
          have hyp := ih B2.length (by rw [← hk]; simp; omega) (A ++ o :: B1) y B2 rfl (by rw [hco]; simp)
          -- in `l`, `o` runs before `y`
          obtain ⟨a1, a2, ha⟩ := List.append_of_mem hyp
          obtain ⟨q, hq, hqt⟩ := (hv a1 y (a2 ++ b) (by
            have : a ++ p :: b = (a ++ [p]) ++ b := by simp
            rw [this, ha]; simp)).2.2 t hyn
          have hqo : q = o := by
            refine producer_unique hg (hv.isOp ?_) hoO hqt ht
            have : a ++ p :: b = (a ++ [p]) ++ b := by simp
            rw [this, ha]; simp [hq]
          subst hqo
          rw [ha]; simp [hq]
    intro o ho
    obtain ⟨A, B, hAB⟩ := List.append_of_mem ho
    exact this B.length A o B rfl hAB
  -- nothing else comes before `p`
  have hsup : ∀ o ∈ a ++ [p], o ∈ c.order := by
    have : ∀ (k : ℕ) (A : List Op) (o : Op) (B : List Op), A.length = k → a ++ [p] = A ++ o :: B →
        o ∈ c.order := by
      intro k
      induction k using Nat.strong_induction_on with
      | _ k ih =>
        intro A o B hk hao
        by_contra hno
        have hlo : a ++ p :: b = A ++ o :: (B ++ b) := by
          have : a ++ p :: b = (a ++ [p]) ++ b := by simp
          rw [this, hao]; simp
        obtain ⟨hoO, hoA, hrd⟩ := hv A o (B ++ b) hlo
        have hos : o ≠ .src := by
          rintro rfl
          exact hno (src_mem hg h.valid (by rw [h.order]; simp))
        obtain ⟨t, ht⟩ := List.exists_mem_of_ne_nil _ (needs_ne hg hos)
        obtain ⟨q, hq, hqt⟩ := hrd t ht
        obtain ⟨A1, A2, hA⟩ := List.append_of_mem hq
        have hqc : q ∈ c.order := ih A1.length (by rw [← hk, hA]; simp) A1 q (A2 ++ o :: B) rfl
          (by rw [hao, hA]; simp)
        have hqO := h.valid.isOp hqc
        have hqp : q = p := huniq t ⟨⟨q, hqc, hqt⟩, o, mem_children.2 ⟨hoO, ht⟩, hno⟩ q hqO hqt
        subst hqp
        -- `q` is the last element of `a ++ [q]`, but it occurs in `A`
        have hqa : q ∉ a := (hv a q b rfl).2.1
        have hlast : ∃ B', o :: B = B' ++ [q] ∧ a = A ++ B' := by
          rcases List.eq_nil_or_concat (o :: B) with hnil | ⟨B', y, hB'⟩
          · simp at hnil
          · rw [List.concat_eq_append] at hB'
            rw [hB', ← List.append_assoc] at hao
            have := List.append_inj' hao (by simp)
            simp only [List.cons.injEq, and_true] at this
            exact ⟨B', by rw [hB', this.2], this.1⟩
        obtain ⟨B', _, ha'⟩ := hlast
        exact hqa (by rw [ha']; simp [hq])
    intro o ho
    obtain ⟨A, B, hAB⟩ := List.append_of_mem ho
    exact this A.length A o B rfl hAB
  exact ⟨a ++ [p], b, by simp, fun o => ⟨hsup o, hsub o⟩⟩

/-! ### Quality -/

/-- `e` can be completed so that no step needs more than `B`. -/
def Completable (g : MemGraph K) (B : K) (e : Entry K) : Prop :=
  e.cost ≤ B ∧ ∃ τ, Valid g (e.cut.order ++ τ) ∧ (∀ o, IsOp g o → o ∈ e.cut.order ++ τ) ∧
    ∀ α x β, τ = α ++ x :: β → stepMem g (e.cut.order ++ α) x ≤ B

theorem valid_swap {g : MemGraph K} {a a' b : List Op} (h : Valid g (a ++ b)) (ha' : Valid g a')
    (hm : ∀ o, o ∈ a ↔ o ∈ a') : Valid g (a' ++ b) := by
  induction b using List.reverseRecOn with
  | nil => simpa using ha'
  | append_singleton b o ih =>
    rw [← List.append_assoc] at h ⊢
    have hl := h.last
    refine (ih h.prefix).snoc hl.1 ?_ ?_
    · intro hc; apply hl.2.1
      rcases List.mem_append.1 hc with hc | hc
      · exact List.mem_append_left _ ((hm o).2 hc)
      · exact List.mem_append_right _ hc
    · intro t ht
      obtain ⟨q, hq, hqt⟩ := hl.2.2 t ht
      refine ⟨q, ?_, hqt⟩
      rcases List.mem_append.1 hq with hq | hq
      · exact List.mem_append_left _ ((hm q).1 hq)
      · exact List.mem_append_right _ hq

theorem search_quality {g : MemGraph K} (hg : WF g) {est B : K} (hB : est ≤ B) {pick}
    (hp : MaxCutSpec.Chooses est pick) : ∀ (fuel k : ℕ) (l : List (Entry K)),
    (∀ e ∈ l, EntryInv g e) → (∃ e ∈ l, Completable g B e) →
    ∀ e, search g pick fuel k l = some e → e.cost ≤ B
  | 0, k, l, _, _, e, h => by simp [search] at h
  | fuel + 1, k, l, hl, ⟨e1, he1, hcost1, τ, hv, hall, hmem⟩, e, h => by
    unfold search at h
    obtain ⟨i, e0, hpk, hget, hmin⟩ := (hp k l).2 (List.ne_nil_of_mem he1)
    have he0m : e0 ∈ l := List.mem_of_getElem? hget
    have he0 := hl e0 he0m
    obtain ⟨pre0, x0, hcut0⟩ := he0.cut
    have hcost0 : e0.cost ≤ B := by
      have h1 : max e1.cost est ≤ B := max_le hcost1 hB
      have h2 : e0.cost ≤ max e0.cost est := le_max_left _ _
      rcases hmin e1 he1 with h3 | ⟨h3, _⟩
      · exact (h2.trans h3.le).trans h1
      · rw [h3] at h2; exact h2.trans h1
    rw [hpk] at h
    simp only at h
    by_cases ht : isTarget e0.cut = true
    · rw [if_pos ht] at h
      simp only [Option.some.injEq] at h; subst h; exact hcost0
    · rw [if_neg ht] at h
      have hnt2 : Op.tgt2 ∉ e0.cut.order := fun hc => ht (complete_target hg hcut0 hc)
      have hinv : ∀ e' ∈ (if isPivot g e0.cut = true then [] else l.eraseIdx i) ++
          (expand g e0.cut).map (fun c => (⟨c, max e0.cost c.total, c :: e0.route⟩ : Entry K)), EntryInv g e' := by
        intro e' he'
        rcases List.mem_append.1 he' with he' | he'
        · split at he'
          · simp at he'
          · exact hl e' (List.mem_of_mem_eraseIdx he')
        · obtain ⟨c, hc, rfl⟩ := List.mem_map.1 he'
          exact (new_inv hg he0 hc).choose_spec.2.2
      -- a completion of `e0` within `B` gives one of a successor
      have hnext : ∀ τ, Valid g (e0.cut.order ++ τ) → (∀ o, IsOp g o → o ∈ e0.cut.order ++ τ) →
          (∀ α x β, τ = α ++ x :: β → stepMem g (e0.cut.order ++ α) x ≤ B) →
          ∃ e' ∈ (expand g e0.cut).map (fun c => (⟨c, max e0.cost c.total, c :: e0.route⟩ : Entry K)),
            Completable g B e' := by
        intro τ hv hall hmem
        cases τ with
        | nil => exact absurd (by simpa using hall .tgt2 trivial) hnt2
        | cons o τ =>
          have ho := hv e0.cut.order o τ rfl
          have hcand := (candidates_iff hg hcut0 o).2 ho
          obtain ⟨c, hc, hco⟩ := expand_complete (c := e0.cut) hcand
          refine ⟨_, List.mem_map.2 ⟨c, hc, rfl⟩, ?_, τ, ?_, ?_, ?_⟩
          · obtain ⟨o', hi, _⟩ := expand_inv hg hcut0 hc
            have hoo : o' = o := by
              have h1 := hi.order
              rw [hco] at h1
              have := List.append_cancel_left h1
              simpa using this.symm
            subst hoo
            have hst := hmem [] o' τ rfl
            simp only [List.append_nil] at hst
            simp only [hi.total_eq]
            exact max_le hcost0 hst
          · simp only [hco]; simpa using hv
          · simp only [hco]; simpa using hall
          · intro α x β hτ
            have := hmem (o :: α) x β (by rw [hτ]; simp)
            simp only [hco]
            simpa using this
      refine search_quality hg hB hp fuel (k + 1) _ hinv ?_ e h
      by_cases hpv : isPivot g e0.cut = true
      · -- the complete order passes the pivot
        obtain ⟨a, b, hab, hm⟩ := pivot_prefix hg hcut0 hpv hnt2 hv hall
        have hmm : ∀ (α : List Op) (o : Op), o ∈ e0.cut.order ++ α ↔ o ∈ a ++ α := by
          intro α o; simp only [List.mem_append, hm o]
        obtain ⟨e', he', hc'⟩ := hnext b (valid_swap (hab ▸ hv) hcut0.valid hm) (by
          intro o ho; rw [hmm, ← hab]; exact hall o ho) (by
          intro α x β hb
          rw [stepMem_congr (hmm α)]
          -- this step of the complete order lies in `e1` or in its completion
          have hsplit : e1.cut.order ++ τ = (a ++ α) ++ x :: β := by rw [hab, hb]; simp
          rcases List.append_eq_append_iff.1 hsplit with ⟨γ, h1, h2⟩ | ⟨γ, h1, h2⟩
          · rw [h1]; exact hmem γ x β h2
          · cases γ with
            | nil =>
              simp only [List.nil_append] at h2
              have h3 := hmem [] x β (by rw [← h2]; simp)
              simp only [List.append_nil] at h1 h3
              rw [← h1]; exact h3
            | cons y γ =>
              simp only [List.cons_append, List.cons.injEq] at h2
              obtain ⟨rfl, rfl⟩ := h2
              exact ((hl e1 he1).peak.1 _ _ _ h1).trans hcost1)
        exact ⟨e', List.mem_append_right _ he', hc'⟩
      · rw [if_neg hpv]
        by_cases hee : ∃ j, j ≠ i ∧ l[j]? = some e1
        · obtain ⟨j, hji, hj⟩ := hee
          refine ⟨e1, List.mem_append_left _ ?_, hcost1, τ, hv, hall, hmem⟩
          rw [List.mem_eraseIdx_iff_getElem?]
          exact ⟨j, hji, hj⟩
        · have : e1 = e0 := by
            obtain ⟨j, hj⟩ := List.mem_iff_getElem?.1 he1
            by_cases hji : j = i
            · subst hji; rw [hj] at hget; simpa using hget
            · exact absurd ⟨j, hji, hj⟩ hee
          subst this
          obtain ⟨e', he', hc'⟩ := hnext τ hv hall hmem
          exact ⟨e', List.mem_append_right _ he', hc'⟩

end MCT.MaxCut
