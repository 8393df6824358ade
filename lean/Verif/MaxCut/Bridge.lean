import Verif.MaxCut.Search
import Mathlib.Tactic.Ring
import Mathlib.Tactic.FieldSimp
import Mathlib.Tactic.Linarith
import Mathlib.Tactic.Positivity
import Mathlib.Algebra.Order.BigOperators.Group.List

/-! From orders with dummies to schedules, and the loop over estimates. -/

set_option linter.unusedSectionVars false

namespace MCT.MaxCut
open MCT.MaxCutSpec

variable {K : Type} [Field K] [LinearOrder K] [IsStrictOrderedRing K]

theorem sum_filter_le {α : Type} (f : α → K) (hf : ∀ a, 0 ≤ f a) (p q : α → Bool) :
    ∀ l : List α, (∀ a ∈ l, p a = true → q a = true ∨ f a = 0) →
      ((l.filter p).map f).sum ≤ ((l.filter q).map f).sum
  | [], _ => by simp
  | a :: l, h => by
    have ih := sum_filter_le f hf p q l (fun b hb => h b (by simp [hb]))
    have ha := h a (by simp)
    by_cases hp : p a = true
    · rcases ha hp with hq | h0
      · simp only [List.filter_cons, hp, hq, if_true, List.map_cons, List.sum_cons]; linarith
      · by_cases hq : q a = true
        · simp only [List.filter_cons, hp, hq, if_true, List.map_cons, List.sum_cons]; linarith
        · simp only [List.filter_cons, hp, hq, if_true, List.map_cons, List.sum_cons, h0]; simpa using ih
    · by_cases hq : q a = true
      · simp only [List.filter_cons, hp, hq, if_true, List.map_cons, List.sum_cons]
        have := hf a
        simp; linarith
      · simpa [List.filter_cons, hp, hq] using ih

/-- Order of the search of a schedule. -/
def orderOf (σ : List ℕ) : List Op := (.src :: σ.map Op.real) ++ [.tgt, .tgt2]

theorem liveX_real {g : MemGraph K} {pre : List ℕ} {i : ℕ} (hpre : ∀ j ∈ pre, j < g.n) (hi : i < g.n) (t : ℕ) :
    LiveX g (.src :: pre.map Op.real) (.real i) (.real t) ↔ Live g pre i t := by
  have h1 : (∃ q ∈ (Op.src :: pre.map Op.real) ++ [.real i], Ten.real t ∈ g.outsOf q) ↔
      (t ∈ g.outs i ∨ ∃ j ∈ pre, t ∈ g.outs j) := by
    constructor
    · rintro ⟨q, hq, hqt⟩
      simp only [List.cons_append, List.mem_cons, List.mem_append, List.mem_map, List.not_mem_nil, or_false] at hq
      rcases hq with rfl | ⟨j, hj, rfl⟩ | rfl
      · simp [MemGraph.outsOf] at hqt
      · right; exact ⟨j, hj, by simpa [MemGraph.outsOf] using hqt⟩
      · left; simpa [MemGraph.outsOf] using hqt
    · rintro (h | ⟨j, hj, h⟩)
      · exact ⟨.real i, by simp, by simpa [MemGraph.outsOf] using h⟩
      · exact ⟨.real j, by simp [hj], by simpa [MemGraph.outsOf] using h⟩
  unfold LiveX Live
  rw [h1]
  refine and_congr_right (fun hw => ?_)
  have hwr : ∃ j < g.n, t ∈ g.outs j := by
    rcases hw with h | ⟨j, hj, h⟩
    · exact ⟨i, hi, h⟩
    · exact ⟨j, hpre j hj, h⟩
  have h2 : Ten.real t ∈ g.outsOf (.real i) ↔ t ∈ g.outs i := by simp [MemGraph.outsOf]
  rw [h2]
  refine or_congr_right ?_
  constructor
  · rintro ⟨o, ho, hno⟩
    obtain ⟨hop, hneed⟩ := mem_children.1 ho
    cases o with
    | src => simp at hno
    | real c =>
      right
      refine ⟨c, hop, ?_, by simpa using hno⟩
      simp only [needs] at hneed
      split at hneed <;> simpa using hneed
    | tgt =>
      left
      simp only [needs, List.mem_map, Ten.real.injEq, exists_eq_right] at hneed
      exact (mem_sinks.1 hneed).2
    | tgt2 => simp [needs] at hneed
  · rintro (h | ⟨c, hc, htc, hnc⟩)
    · refine ⟨.tgt, mem_children.2 ⟨trivial, ?_⟩, by simp⟩
      simp only [needs, List.mem_map, Ten.real.injEq, exists_eq_right]
      exact mem_sinks.2 ⟨hwr, h⟩
    · have : g.ins c ≠ [] := List.ne_nil_of_mem htc
      exact ⟨.real c, mem_children.2 ⟨hc, by simp [needs, this, htc]⟩, by simpa using hnc⟩

theorem sum_dummies (g : MemGraph K) (p : Ten → Bool) :
    (((allTens g).filter p).map g.sizeOf).sum = ((g.tensors.filter fun t => p (.real t)).map g.size).sum := by
  have h : ∀ l : List ℕ, (((l.map Ten.real).filter p).map g.sizeOf).sum =
      ((l.filter fun t => p (.real t)).map g.size).sum := by
    intro l
    induction l with
    | nil => simp
    | cons a l ih =>
      simp only [List.map_cons, List.filter_cons]
      by_cases hp : p (.real a) = true <;> simp [hp, ih, MemGraph.sizeOf]
  simp only [allTens, List.filter_cons]
  split <;> split <;> split <;> simp [MemGraph.sizeOf, h]

theorem stepMem_real {g : MemGraph K} {pre : List ℕ} {i : ℕ} (hpre : ∀ j ∈ pre, j < g.n) (hi : i < g.n) :
    stepMem g (.src :: pre.map Op.real) (.real i) = liveMem g pre i := by
  unfold stepMem liveMem
  rw [sum_dummies]
  show ((g.tensors.filter _).map g.size).sum = ((g.tensors.filter _).map g.size).sum
  congr 2
  apply List.filter_congr
  intro t _
  simp only [liveX_real hpre hi]

theorem stepMem_tgt_le {g : MemGraph K} (hg : WF g) (pre : List Op) (i : ℕ) :
    stepMem g (pre ++ [.real i]) .tgt ≤ stepMem g pre (.real i) := by
  unfold stepMem
  apply sum_filter_le _ (sizeOf_nonneg hg)
  intro t _ ht
  rw [decide_eq_true_eq] at ht
  obtain ⟨⟨q, hq, hqt⟩, h2⟩ := ht
  have hout : t ∈ g.outsOf .tgt → g.sizeOf t = 0 := by
    intro h
    simp only [MemGraph.outsOf, List.mem_singleton] at h
    subst h; rfl
  rcases h2 with h2 | ⟨o, ho, hno⟩
  · exact .inr (hout h2)
  · rcases List.mem_append.1 hq with hq | hq
    · left
      rw [decide_eq_true_eq]
      exact ⟨⟨q, hq, hqt⟩, .inr ⟨o, ho, fun h => hno (by simp [h])⟩⟩
    · simp only [List.mem_singleton] at hq; subst hq
      exact .inr (hout hqt)

theorem stepMem_tgt2 {g : MemGraph K} (hg : WF g) {σ : List ℕ} (hσ : σ.Perm (List.range g.n)) :
    stepMem g ((.src :: σ.map Op.real) ++ [.tgt]) .tgt2 = 0 := by
  unfold stepMem
  apply List.sum_eq_zero
  intro a ha
  obtain ⟨t, ht, rfl⟩ := List.mem_map.1 ha
  rw [List.mem_filter, decide_eq_true_eq] at ht
  obtain ⟨_, _, h2⟩ := ht
  cases t with
  | real t =>
    exfalso
    rcases h2 with h2 | ⟨o, ho, hno⟩
    · simp [MemGraph.outsOf] at h2
    · obtain ⟨hop, hneed⟩ := mem_children.1 ho
      cases o with
      | src => simp at hno
      | real c => exact hno (by simp [hσ.mem_iff.2 (List.mem_range.2 hop)])
      | tgt => simp at hno
      | tgt2 => simp [needs] at hneed
  | _ => rfl

theorem schedule_of_valid {g : MemGraph K} {σ : List ℕ} (hp : σ.Perm (List.range g.n))
    (hv : Valid g (orderOf σ)) : IsSchedule g σ := by
  refine ⟨hp, ?_⟩
  intro pre i post hσ t ht
  obtain ⟨_, _, hr⟩ := hv (.src :: pre.map Op.real) (.real i) (post.map Op.real ++ [.tgt, .tgt2]) (by
    simp [orderOf, hσ])
  have hne : g.ins i ≠ [] := List.ne_nil_of_mem ht
  obtain ⟨q, hq, hqt⟩ := hr (.real t) (by simp [needs, hne, ht])
  simp only [List.mem_cons, List.mem_map] at hq
  rcases hq with rfl | ⟨j, hj, rfl⟩
  · simp [MemGraph.outsOf] at hqt
  · exact ⟨j, hj, by simpa [MemGraph.outsOf] using hqt⟩

theorem valid_of_schedule {g : MemGraph K} {σ : List ℕ} (h : IsSchedule g σ) : Valid g (orderOf σ) := by
  have hn : σ.Nodup := h.1.nodup_iff.2 List.nodup_range
  have h1 : ∀ pre post, σ = pre ++ post → Valid g (.src :: pre.map Op.real) := by
    intro pre
    induction pre using List.reverseRecOn with
    | nil =>
      intro _ _
      simpa using (Valid.nil g).snoc (o := .src) trivial (by simp) (by intro t ht; simp [needs] at ht)
    | append_singleton pre i ih =>
      intro post hσ
      have hσ' : σ = pre ++ i :: post := by rw [hσ]; simp
      have := (ih (i :: post) hσ').snoc (o := .real i)
        (List.mem_range.1 (h.1.mem_iff.1 (by rw [hσ']; simp))) (by
          rw [hσ', List.nodup_append] at hn
          simp only [List.mem_cons, reduceCtorEq, false_or, List.mem_map, Op.real.injEq, exists_eq_right]
          intro hi
          exact hn.2.2 i hi i (by simp) rfl) (by
          intro t ht
          simp only [needs] at ht
          split at ht
          · simp only [List.mem_singleton] at ht; subst ht
            exact ⟨.src, by simp, by simp [MemGraph.outsOf]⟩
          · simp only [List.mem_map] at ht
            obtain ⟨s, hs, rfl⟩ := ht
            obtain ⟨j, hj, hsj⟩ := h.2 pre i post hσ' s hs
            exact ⟨.real j, by simp [hj], by simp [MemGraph.outsOf, hsj]⟩)
      simpa using this
  have h2 := (h1 σ [] (by simp)).snoc (o := .tgt) trivial (by simp) (by
    intro t ht
    simp only [needs, List.mem_map] at ht
    obtain ⟨s, hs, rfl⟩ := ht
    obtain ⟨⟨i, hi, hsi⟩, _⟩ := mem_sinks.1 hs
    exact ⟨.real i, by simp [h.1.mem_iff, hi], by simp [MemGraph.outsOf, hsi]⟩)
  have h3 := h2.snoc (o := .tgt2) trivial (by simp) (by
    intro t ht
    simp only [needs, List.mem_singleton] at ht; subst ht
    exact ⟨.tgt, by simp, by simp [MemGraph.outsOf]⟩)
  simpa [orderOf] using h3

/-- Steps of the order of a schedule. -/
theorem order_split {σ : List ℕ} {pre : List Op} {x : Op} {post : List Op} (h : orderOf σ = pre ++ x :: post) :
    (pre = [] ∧ x = .src) ∨ (∃ p i q, σ = p ++ i :: q ∧ pre = .src :: p.map Op.real ∧ x = .real i) ∨
      (pre = .src :: σ.map Op.real ∧ x = .tgt) ∨ (pre = (.src :: σ.map Op.real) ++ [.tgt] ∧ x = .tgt2) := by
  unfold orderOf at h
  rcases List.append_eq_append_iff.1 h with ⟨γ, h1, h2⟩ | ⟨γ, h1, h2⟩
  · right; right
    match γ, h1, h2 with
    | [], h1, h2 => simp at h1 h2; exact .inl ⟨h1, h2.1.symm⟩
    | [a], h1, h2 => simp at h2; right; exact ⟨by rw [h1, h2.1], h2.2.1.symm⟩
    | a :: b :: c, h1, h2 => simp at h2
  · cases γ with
    | nil =>
      simp only [List.nil_append, List.append_nil, List.cons.injEq] at h1 h2
      right; right; left
      exact ⟨h1.symm, h2.1⟩
    | cons y γ =>
      simp only [List.cons_append, List.cons.injEq] at h2
      obtain ⟨rfl, _⟩ := h2
      cases pre with
      | nil => simp only [List.nil_append, List.cons.injEq] at h1; left; exact ⟨rfl, h1.1.symm⟩
      | cons a pre =>
        simp only [List.cons_append, List.cons.injEq] at h1
        obtain ⟨rfl, h1⟩ := h1
        obtain ⟨p, q', hσ, hp, hq⟩ := List.map_eq_append_iff.1 h1
        cases q' with
        | nil => simp at hq
        | cons i q =>
          simp only [List.map_cons, List.cons.injEq] at hq
          right; left
          exact ⟨p, i, q, hσ, by rw [hp], hq.1.symm⟩

theorem mem_lt {g : MemGraph K} {σ : List ℕ} (hp : σ.Perm (List.range g.n)) {i : ℕ} (h : i ∈ σ) : i < g.n :=
  List.mem_range.1 (hp.mem_iff.1 h)

theorem order_real {σ p q : List ℕ} {i : ℕ} (h : σ = p ++ i :: q) :
    orderOf σ = (.src :: p.map Op.real) ++ .real i :: (q.map Op.real ++ [.tgt, .tgt2]) := by
  simp [orderOf, h]

theorem liveMem_nonneg {g : MemGraph K} (hg : WF g) (pre : List ℕ) (i : ℕ) : 0 ≤ liveMem g pre i := by
  apply List.sum_nonneg
  intro a ha
  obtain ⟨t, _, rfl⟩ := List.mem_map.1 ha
  exact hg.size t

/-- No step of the order needs more than the largest step of the schedule. -/
theorem step_bound {g : MemGraph K} (hg : WF g) {σ : List ℕ} (hp : σ.Perm (List.range g.n)) {c : K}
    (h : ∀ pre i post, σ = pre ++ i :: post → liveMem g pre i ≤ c) {pre : List Op} {x : Op} {post : List Op}
    (hs : orderOf σ = pre ++ x :: post) : stepMem g pre x ≤ c := by
  have hne : σ ≠ [] := by
    rintro rfl
    have := hp.length_eq
    simp at this
    have := hg.pos; omega
  obtain ⟨σ', i, hσ⟩ := (List.eq_nil_or_concat σ).resolve_left hne
  rw [List.concat_eq_append] at hσ
  have h0 : liveMem g σ' i ≤ c := h σ' i [] hσ
  have hc0 : 0 ≤ c := (liveMem_nonneg hg σ' i).trans h0
  have hlt : ∀ p i q, σ = p ++ i :: q → (∀ j ∈ p, j < g.n) ∧ i < g.n := by
    intro p i q hpq
    exact ⟨fun j hj => mem_lt hp (by rw [hpq]; simp [hj]), mem_lt hp (by rw [hpq]; simp)⟩
  rcases order_split hs with ⟨rfl, rfl⟩ | ⟨p, j, q, hpq, rfl, rfl⟩ | ⟨rfl, rfl⟩ | ⟨rfl, rfl⟩
  · rw [stepMem_src]; exact hc0
  · rw [stepMem_real (hlt p j q hpq).1 (hlt p j q hpq).2]; exact h p j q hpq
  · have h1 := stepMem_tgt_le hg (.src :: σ'.map Op.real) i
    rw [stepMem_real (hlt σ' i [] hσ).1 (hlt σ' i [] hσ).2] at h1
    have h2 : Op.src :: σ.map Op.real = (.src :: σ'.map Op.real) ++ [.real i] := by simp [hσ]
    rw [h2]; exact h1.trans h0
  · rw [stepMem_tgt2 hg hp]; exact hc0

theorem peak_of_peakX {g : MemGraph K} (hg : WF g) {σ : List ℕ} (hp : σ.Perm (List.range g.n)) {c : K}
    (h : PeakX g (orderOf σ) c) : IsPeak g σ c := by
  have hlt : ∀ p i q, σ = p ++ i :: q → (∀ j ∈ p, j < g.n) ∧ i < g.n := by
    intro p i q hpq
    exact ⟨fun j hj => mem_lt hp (by rw [hpq]; simp [hj]), mem_lt hp (by rw [hpq]; simp)⟩
  have hup : ∀ pre i post, σ = pre ++ i :: post → liveMem g pre i ≤ c := by
    intro p i q hpq
    rw [← stepMem_real (hlt p i q hpq).1 (hlt p i q hpq).2]
    exact h.1 _ _ _ (order_real hpq)
  refine ⟨hup, ?_⟩
  have hne : σ ≠ [] := by
    rintro rfl
    have := hp.length_eq
    simp at this
    have := hg.pos; omega
  obtain ⟨σ', i, hσ⟩ := (List.eq_nil_or_concat σ).resolve_left hne
  rw [List.concat_eq_append] at hσ
  have hzero : c ≤ liveMem g σ' i → ∃ pre i post, σ = pre ++ i :: post ∧ c = liveMem g pre i :=
    fun hc => ⟨σ', i, [], hσ, le_antisymm hc (hup σ' i [] hσ)⟩
  obtain ⟨pre, x, post, hs, hc⟩ := h.2
  rcases order_split hs with ⟨rfl, rfl⟩ | ⟨p, j, q, hpq, rfl, rfl⟩ | ⟨rfl, rfl⟩ | ⟨rfl, rfl⟩
  · apply hzero; rw [hc, stepMem_src]; exact liveMem_nonneg hg _ _
  · rw [stepMem_real (hlt p j q hpq).1 (hlt p j q hpq).2] at hc
    exact ⟨p, j, q, hpq, hc⟩
  · apply hzero
    have h1 := stepMem_tgt_le hg (.src :: σ'.map Op.real) i
    rw [stepMem_real (hlt σ' i [] hσ).1 (hlt σ' i [] hσ).2] at h1
    have h2 : Op.src :: σ.map Op.real = (.src :: σ'.map Op.real) ++ [.real i] := by simp [hσ]
    rw [hc, h2]; exact h1
  · apply hzero; rw [hc, stepMem_tgt2 hg hp]; exact liveMem_nonneg hg _ _

theorem removeDummies_order (σ : List ℕ) : removeDummies (orderOf σ) = σ := by
  unfold removeDummies orderOf
  simp only [List.filterMap_append, List.filterMap_cons, List.filterMap_nil, List.append_nil, List.filterMap_map]
  show List.filterMap some σ = σ
  exact List.filterMap_some

/-- What one search returns. -/
theorem solve_sound {g : MemGraph K} (hg : WF g) {pick} (hp : Picks pick) {lim : ℕ} {r : Result K}
    (h : solve g pick lim = some r) :
    IsSchedule g r.schedule ∧ IsPeak g r.schedule r.cost ∧ CoversSteps g r.schedule r.cuts := by
  unfold solve at h
  simp only [Option.map_eq_some_iff] at h
  obtain ⟨e, he, rfl⟩ := h
  obtain ⟨hi, ht⟩ := search_inv hg hp lim 0 _ (by
    intro e he; simp only [List.mem_singleton] at he; subst he; exact start_inv g) e he
  obtain ⟨pre, x, hcut⟩ := hi.cut
  obtain ⟨σ, hσ, hperm⟩ := complete_form hg hcut.valid (isTarget_tgt2 hcut ht)
  have hσ' : e.cut.order = orderOf σ := hσ
  simp only [hσ', removeDummies_order]
  refine ⟨schedule_of_valid hperm (hσ' ▸ hcut.valid), peak_of_peakX hg hperm (hσ' ▸ hi.peak), ?_⟩
  intro p i q hpq
  have hlt : (∀ j ∈ p, j < g.n) ∧ i < g.n :=
    ⟨fun j hj => mem_lt hperm (by rw [hpq]; simp [hj]), mem_lt hperm (by rw [hpq]; simp)⟩
  obtain ⟨c, hc, hci⟩ := hi.route _ _ _ (hσ'.trans (order_real hpq))
  have hmem : ∀ x, x ∈ (removeDummyTensors g c).mem ↔ ∃ t, x = Ten.real t ∧ Live g p i t := by
    intro x
    cases x with
    | real t =>
      simp only [removeDummyTensors, List.mem_filter, and_true, hci.mem, liveX_real hlt.1 hlt.2]
      exact ⟨fun h => ⟨t, rfl, h⟩, fun ⟨t', e, h⟩ => by cases e; exact h⟩
    | _ => simp [removeDummyTensors]
  refine ⟨_, List.mem_map.2 ⟨c, hc, rfl⟩, hmem, ?_⟩
  rw [← stepMem_real hlt.1 hlt.2, ← hci.total_eq, hci.total]
  simp only [removeDummyTensors]
  generalize c.mem = m
  induction m with
  | nil => simp
  | cons a m ih => cases a <;> simp [List.filter_cons, MemGraph.sizeOf, ih]

theorem liveMem_le_total {g : MemGraph K} (hg : WF g) (pre : List ℕ) (i : ℕ) : liveMem g pre i ≤ totalMem g := by
  unfold liveMem totalMem
  have := sum_filter_le g.size hg.size (fun t => decide (Live g pre i t)) (fun _ => true)
    (((List.range g.n).flatMap g.outs).dedup) (fun a _ _ => .inl rfl)
  simpa using this

theorem entry_cost_le {g : MemGraph K} (hg : WF g) {e : Entry K} (h : EntryInv g e) : e.cost ≤ totalMem g := by
  obtain ⟨pre, x, post, _, hc⟩ := h.peak.2
  rw [hc]
  unfold stepMem
  rw [sum_dummies]
  have := sum_filter_le g.size hg.size (fun t => decide (LiveX g pre x (.real t))) (fun _ => true)
    g.tensors (fun a _ _ => .inl rfl)
  simpa [totalMem, MemGraph.tensors] using this

theorem chooses_picks {est : K} {pick : ℕ → List (Entry K) → Option (ℕ × Entry K)} (h : Chooses est pick) :
    Picks pick := by
  intro k l i e hpk
  by_cases hl : l = []
  · rw [(h k l).1 hl] at hpk; simp at hpk
  · obtain ⟨i', e', h1, h2, _⟩ := (h k l).2 hl
    rw [hpk] at h1
    simp only [Option.some.injEq, Prod.mk.injEq] at h1
    obtain ⟨rfl, rfl⟩ := h1
    exact h2

/-- A search with the estimate of the first iteration finds a schedule. -/
theorem solve_found {g : MemGraph K} (hg : WF g) {pick} (hp : Chooses (totalMem g) pick) {lim : ℕ}
    (h : g.n + 2 < lim) : ∃ r, solve g pick lim = some r := by
  obtain ⟨e, he⟩ := search_found hg hp (fun e he => entry_cost_le hg he) lim 0 [⟨srcCut, 0, [srcCut]⟩]
    (by intro e he; simp only [List.mem_singleton] at he; subst he; exact ⟨start_inv g, by simp [srcCut]⟩)
    ⟨_, List.mem_singleton.2 rfl, by simp [srcCut]⟩ (by omega) (by omega)
  exact ⟨_, by rw [solve, he]; rfl⟩

theorem solve_none {g : MemGraph K} (hg : WF g) {pick} (hp : Picks pick) {lim : ℕ}
    (h : lim ≤ g.n + 2) : solve g pick lim = none := by
  rw [solve, search_none hg hp lim 0 _ (by
    intro e he; simp only [List.mem_singleton] at he; subst he; exact ⟨start_inv g, by simp [srcCut]⟩) (by omega)]
  rfl

/-- The cost of a search is at most the estimate or the peak of any schedule. -/
theorem solve_quality {g : MemGraph K} (hg : WF g) {est : K} {pick} (hp : Chooses est pick) {lim : ℕ}
    {r : Result K} (h : solve g pick lim = some r) {σ : List ℕ} (hσ : IsSchedule g σ) {c : K}
    (hc : IsPeak g σ c) : r.cost ≤ max est c := by
  unfold solve at h
  simp only [Option.map_eq_some_iff] at h
  obtain ⟨e, he, rfl⟩ := h
  have hc0 : 0 ≤ c := by
    obtain ⟨p, i, q, _, h2⟩ := hc.2
    rw [h2]; exact liveMem_nonneg hg _ _
  refine search_quality hg (le_max_left est c) hp lim 0 _ (by
    intro e he; simp only [List.mem_singleton] at he; subst he; exact start_inv g) ⟨_, List.mem_singleton.2 rfl, ?_⟩ e he
  refine ⟨hc0.trans (le_max_right _ _), σ.map Op.real ++ [.tgt, .tgt2], ?_, ?_, ?_⟩
  · exact valid_of_schedule hσ
  · intro o ho
    cases o with
    | real i => simp [srcCut, hσ.1.mem_iff.2 (List.mem_range.2 ho)]
    | _ => simp [srcCut]
  · intro α x β hτ
    refine (step_bound hg hσ.1 hc.1 (pre := [Op.src] ++ α) (x := x) (post := β) ?_).trans (le_max_right _ _)
    simp only [orderOf, List.cons_append, List.nil_append]
    rw [hτ]

/-! ### Termination without a binding limit -/

/-- Expansions the elements of the open list can still cause. -/
def potential (g : MemGraph K) (l : List (Entry K)) : ℕ :=
  (l.map fun e => (g.n + 4) ^ (g.n + 3 - e.cut.order.length)).sum

theorem candidates_nodup {g : MemGraph K} (hg : WF g) (cc : Cut K) : (candidates g cc).Nodup := by
  unfold candidates
  have hch : ∀ t, (g.children t).Nodup := by
    intro t
    cases t with
    | srcT => exact (List.nodup_range.filter _).map (fun a b h => by simpa using h)
    | real t =>
      simp only [MemGraph.children]
      rw [List.nodup_append]
      refine ⟨(List.nodup_range.filter _).map (fun a b h => by simpa using h), ?_, ?_⟩
      · split <;> simp
      · intro a ha b hb hab
        subst hab
        obtain ⟨c, _, rfl⟩ := List.mem_map.1 ha
        split at hb <;> simp at hb
    | tgtT => simp [MemGraph.children]
    | tgtT2 => simp [MemGraph.children]
  have : ∀ (m : List Ten) (acc : List Op), acc.Nodup →
      (m.foldl (fun acc t => acc ++ (g.children t).filter fun o => canExpand g o cc && decide (o ∉ acc)) acc).Nodup := by
    intro m
    induction m with
    | nil => intro acc h; exact h
    | cons t m ih =>
      intro acc h
      apply ih
      rw [List.nodup_append]
      refine ⟨h, (hch t).filter _, ?_⟩
      intro a ha b hb hab
      subst hab
      simp only [List.mem_filter, Bool.and_eq_true, decide_eq_true_eq] at hb
      exact hb.2.2 ha
  exact this _ _ (by simp)

theorem expand_length {g : MemGraph K} (hg : WF g) {c : Cut K} {pre : List Op} {x : Op} (h : CutInv g c pre x) :
    (expand g c).length ≤ g.n + 3 := by
  simp only [expand, List.length_map]
  rw [← allOps_length g]
  refine ((candidates_nodup hg _).subperm (fun o ho => ?_)).length_le
  exact mem_allOps.2 ((candidates_iff hg h o).1 ho).1

theorem sum_eraseIdx (f : Entry K → ℕ) : ∀ (l : List (Entry K)) (i : ℕ) (e : Entry K), l[i]? = some e →
    ((l.eraseIdx i).map f).sum + f e = (l.map f).sum
  | [], i, e, h => by simp at h
  | a :: l, 0, e, h => by simp at h; subst h; simp; omega
  | a :: l, i + 1, e, h => by
    have := sum_eraseIdx f l i e (by simpa using h)
    simp; omega

/-- With enough iterations every search finds a schedule. -/
theorem search_terminates {g : MemGraph K} (hg : WF g) {est : K} {pick} (hp : Chooses est pick) :
    ∀ (fuel k : ℕ) (l : List (Entry K)), (∀ e ∈ l, EntryInv g e) → l ≠ [] → potential g l < fuel →
      ∃ e, search g pick fuel k l = some e
  | 0, k, l, _, _, h => by omega
  | fuel + 1, k, l, hl, hne, hf => by
    unfold search
    obtain ⟨i, e0, hpk, hget, _⟩ := (hp k l).2 hne
    rw [hpk]
    simp only
    have he0 := hl e0 (List.mem_of_getElem? hget)
    obtain ⟨pre, x, hcut⟩ := he0.cut
    by_cases ht : isTarget e0.cut = true
    · exact ⟨e0, by rw [if_pos ht]⟩
    · rw [if_neg ht]
      have hnt2 : Op.tgt2 ∉ e0.cut.order := fun h => ht (complete_target hg hcut h)
      have hlen : e0.cut.order.length < g.n + 3 := by
        refine lt_of_le_of_ne (valid_length hcut.valid) (fun h => hnt2 ?_)
        exact complete_of_length hcut.valid h .tgt2 trivial
      obtain ⟨o, ho⟩ := progress hg hcut.valid (by rw [hcut.order]; simp) hnt2
      obtain ⟨c, hc, _⟩ := expand_complete (c := e0.cut) ((candidates_iff hg hcut o).2 ho)
      refine search_terminates hg hp fuel (k + 1) _ ?_ ?_ ?_
      · intro e' he'
        rcases List.mem_append.1 he' with he' | he'
        · split at he'
          · simp at he'
          · exact hl e' (List.mem_of_mem_eraseIdx he')
        · obtain ⟨c, hc, rfl⟩ := List.mem_map.1 he'
          exact (new_inv hg he0 hc).choose_spec.2.2
      · intro hnil
        have := List.append_eq_nil_iff.1 hnil
        have h2 := List.map_eq_nil_iff.1 this.2
        rw [h2] at hc; simp at hc
      · have hsplit := sum_eraseIdx (fun e : Entry K => (g.n + 4) ^ (g.n + 3 - e.cut.order.length)) l i e0 hget
        have hnew : (((expand g e0.cut).map fun c => (⟨c, max e0.cost c.total, c :: e0.route⟩ : Entry K)).map
            fun e => (g.n + 4) ^ (g.n + 3 - e.cut.order.length)).sum <
              (g.n + 4) ^ (g.n + 3 - e0.cut.order.length) := by
          have heq : ∀ m ∈ (((expand g e0.cut).map fun c => (⟨c, max e0.cost c.total, c :: e0.route⟩ : Entry K)).map
              fun e => (g.n + 4) ^ (g.n + 3 - e.cut.order.length)),
              m ≤ (g.n + 4) ^ (g.n + 2 - e0.cut.order.length) := by
            intro m hm
            obtain ⟨e', he', rfl⟩ := List.mem_map.1 hm
            obtain ⟨c, hc, rfl⟩ := List.mem_map.1 he'
            obtain ⟨o, _, ho2, _⟩ := new_inv hg he0 hc
            simp only [ho2, List.length_append, List.length_singleton]
            have : g.n + 3 - (e0.cut.order.length + 1) = g.n + 2 - e0.cut.order.length := by omega
            rw [this]
          have hsum := List.sum_le_card_nsmul _ _ heq
          simp only [List.length_map, nsmul_eq_mul, Nat.cast_id] at hsum
          have hexp : (g.n + 4) ^ (g.n + 3 - e0.cut.order.length) =
              (g.n + 4) * (g.n + 4) ^ (g.n + 2 - e0.cut.order.length) := by
            rw [← pow_succ']; congr 1; omega
          have hpos : 0 < (g.n + 4) ^ (g.n + 2 - e0.cut.order.length) := Nat.pos_of_ne_zero (by positivity)
          rw [hexp]
          have h1 := Nat.mul_le_mul_right ((g.n + 4) ^ (g.n + 2 - e0.cut.order.length)) (expand_length hg hcut)
          have h2 : (g.n + 3) * (g.n + 4) ^ (g.n + 2 - e0.cut.order.length) <
              (g.n + 4) * (g.n + 4) ^ (g.n + 2 - e0.cut.order.length) := Nat.mul_lt_mul_of_pos_right (by omega) hpos
          omega
        unfold potential at hf ⊢
        rw [List.map_append, List.sum_append]
        have hrest : ((if isPivot g e0.cut = true then [] else l.eraseIdx i).map
            fun e : Entry K => (g.n + 4) ^ (g.n + 3 - e.cut.order.length)).sum ≤
              ((l.eraseIdx i).map fun e : Entry K => (g.n + 4) ^ (g.n + 3 - e.cut.order.length)).sum := by
          split <;> simp
        omega

theorem solve_terminates {g : MemGraph K} (hg : WF g) {est : K} {pick} (hp : Chooses est pick) {lim : ℕ}
    (h : (g.n + 4) ^ (g.n + 2) < lim) : ∃ r, solve g pick lim = some r := by
  obtain ⟨e, he⟩ := search_terminates hg hp lim 0 [⟨srcCut, 0, [srcCut]⟩]
    (by intro e he; simp only [List.mem_singleton] at he; subst he; exact start_inv g) (by simp)
    (by simpa [potential, srcCut] using h)
  exact ⟨_, by rw [solve, he]; rfl⟩

/-! ### The loop over estimates -/

/-- The loop returns what it had, or the result of one of its searches. -/
theorem loop_result {solver : ℕ → K → Option (Result K)} {timeout : ℕ → Bool} {eps : K} :
    ∀ (fuel it : ℕ) (l u : K) (last : Option (Result K)) (r : Result K),
      maxCutLoop solver timeout eps fuel it l u last = some (some r) →
      last = some r ∨ ∃ it' est, solver it' est = some r
  | 0, it, l, u, last, r, h => by simp [maxCutLoop] at h; exact .inl h
  | fuel + 1, it, l, u, last, r, h => by
    unfold maxCutLoop at h
    simp only at h
    split at h
    · split at h
      · simp at h
      · rename_i r0 _; simp only [Option.some.injEq] at h; subst h; exact .inl rfl
    · split at h
      · exact loop_result fuel (it + 1) _ u last r h
      · rename_i r0 hr0
        split at h
        · simp only [Option.some.injEq] at h; subst h; exact .inr ⟨_, _, hr0⟩
        · rcases loop_result fuel (it + 1) l _ (some r0) r h with h | h
          · simp only [Option.some.injEq] at h; subst h; exact .inr ⟨_, _, hr0⟩
          · exact .inr h

theorem loop_some {solver : ℕ → K → Option (Result K)} {timeout : ℕ → Bool} {eps : K} :
    ∀ (fuel it : ℕ) (l u : K) (r0 : Result K),
      ∃ r, maxCutLoop solver timeout eps fuel it l u (some r0) = some (some r)
  | 0, it, l, u, r0 => ⟨r0, rfl⟩
  | fuel + 1, it, l, u, r0 => by
    unfold maxCutLoop
    simp only
    split
    · exact ⟨r0, rfl⟩
    · split
      · exact loop_some fuel (it + 1) _ u r0
      · rename_i r1 _
        split
        · exact ⟨r1, rfl⟩
        · exact loop_some fuel (it + 1) l _ r1

theorem loop_none {solver : ℕ → K → Option (Result K)} {timeout : ℕ → Bool} {eps : K}
    (hs : ∀ it est, solver it est = none) (ht : ∀ it, timeout it = false) :
    ∀ (fuel it : ℕ) (l u : K), maxCutLoop solver timeout eps fuel it l u none = some none
  | 0, it, l, u => rfl
  | fuel + 1, it, l, u => by
    unfold maxCutLoop
    simp only [ht, hs]
    simpa using loop_none hs ht fuel (it + 1) _ u

/-- Quality after successful searches. -/
theorem loop_quality {solver : ℕ → K → Option (Result K)} {timeout : ℕ → Bool} {eps p : K}
    (hs : ∀ it est, ∃ r, solver it est = some r) (ht : ∀ it, timeout it = false)
    (hq : ∀ it est r, solver it est = some r → r.cost ≤ max est p) (l : K) (hlp : l * (1 + eps) ≤ p * (1 + eps))
    (hpe : p ≤ p * (1 + eps)) :
    ∀ (fuel it : ℕ) (u : K) (last : Option (Result K)) (r : Result K),
      maxCutLoop solver timeout eps (fuel + 1) it l u last = some (some r) →
      r.cost ≤ p * (1 + eps) ∨ r.cost ≤ max p (l + (u - l) / 2 ^ (fuel + 1))
  | fuel, it, u, last, r, h => by
    unfold maxCutLoop at h
    simp only [ht] at h
    obtain ⟨r0, hr0⟩ := hs it ((u + l) / 2)
    rw [hr0] at h
    simp only [Bool.false_eq_true, and_false, if_false] at h
    have hq0 := hq _ _ _ hr0
    split at h
    · rename_i hstop
      simp only [Option.some.injEq] at h; subst h
      left
      rcases min_choice ((u + l) / 2) r0.cost with hm | hm
      · rw [hm] at hstop
        refine hq0.trans (max_le (hstop.trans hlp) hpe)
      · rw [hm] at hstop; exact le_trans hstop hlp
    · cases fuel with
      | zero =>
        simp only [maxCutLoop, Option.some.injEq] at h; subst h
        right
        have : l + (u - l) / 2 ^ (0 + 1) = (u + l) / 2 := by ring
        rw [this, max_comm]; exact hq0
      | succ fuel =>
        rcases loop_quality hs ht hq l hlp hpe fuel (it + 1) _ _ r h with h | h
        · exact .inl h
        · right
          refine h.trans (max_le_max le_rfl ?_)
          have h1 : min ((u + l) / 2) r0.cost ≤ (u + l) / 2 := min_le_left _ _
          have h2 : (0 : K) < 2 ^ (fuel + 1) := by positivity
          have h3 : (u - l) / 2 ^ (fuel + 1 + 1) = ((u + l) / 2 - l) / 2 ^ (fuel + 1) := by
            rw [pow_succ (2 : K) (fuel + 1)]; field_simp; ring
          rw [h3]
          have := div_le_div_of_nonneg_right (show min ((u + l) / 2) r0.cost - l ≤ (u + l) / 2 - l by linarith) h2.le
          linarith

theorem first_estimate (g : MemGraph K) : (2 * (g.tensors.map g.size).sum - g.lbound + g.lbound) / 2 = totalMem g := by
  have : (g.tensors.map g.size).sum = totalMem g := rfl
  rw [this]; ring

/-! ### Lower bound -/

theorem lbound_spec {g : MemGraph K} (hg : WF g) :
    (∃ i < g.n, g.lbound = ownMem g i) ∧ ∀ i < g.n, ownMem g i ≤ g.lbound := by
  have hfun : (fun i => if g.isInput i then ((g.outs i).dedup.map g.size).sum
      else ((g.outs i).dedup.map g.size).sum + ((g.ins i).dedup.map g.size).sum) = ownMem g := by
    funext i; unfold ownMem; split <;> simp
  have hne : (List.range g.n).map (ownMem g) ≠ [] := by
    have := hg.pos
    simp; omega
  unfold MemGraph.lbound
  rw [hfun]
  cases hm : ((List.range g.n).map (ownMem g)).max? with
  | none => rw [List.max?_eq_none_iff] at hm; exact absurd hm hne
  | some m =>
    have := List.max?_eq_some_iff.1 hm
    simp only [Option.getD_some]
    constructor
    · obtain ⟨i, hi, rfl⟩ := List.mem_map.1 this.1
      exact ⟨i, List.mem_range.1 hi, rfl⟩
    · intro i hi
      exact this.2 _ (List.mem_map.2 ⟨i, List.mem_range.2 hi, rfl⟩)

theorem own_le_live {g : MemGraph K} (hg : WF g) {σ : List ℕ} (hσ : IsSchedule g σ) {pre post : List ℕ} {i : ℕ}
    (h : σ = pre ++ i :: post) : ownMem g i ≤ liveMem g pre i := by
  have hi : i < g.n := mem_lt hσ.1 (by rw [h]; simp)
  have hnin : i ∉ pre := by
    have hn : σ.Nodup := hσ.1.nodup_iff.2 List.nodup_range
    rw [h, List.nodup_append] at hn
    intro hc
    exact hn.2.2 i hc i (by simp) rfl
  have key : ((((g.outs i).dedup ++ (g.ins i).dedup)).map g.size).sum ≤ liveMem g pre i := by
    unfold liveMem
    have hnd : ((g.outs i).dedup ++ (g.ins i).dedup).Nodup := by
      rw [List.nodup_append]
      refine ⟨List.nodup_dedup _, List.nodup_dedup _, ?_⟩
      intro a ha b hb hab
      subst hab
      rw [List.mem_dedup] at ha hb
      obtain ⟨j, hj, haj⟩ := hg.ins i hi a hb
      have := hg.single i hi j (by omega) a ha haj
      omega
    have hsub : ((g.outs i).dedup ++ (g.ins i).dedup).Subperm
        (((List.range g.n).flatMap g.outs).dedup.filter fun t => decide (Live g pre i t)) := by
      apply hnd.subperm
      intro t ht
      rw [List.mem_filter, List.mem_dedup, List.mem_flatMap, decide_eq_true_eq]
      rcases List.mem_append.1 ht with ht | ht
      · rw [List.mem_dedup] at ht
        exact ⟨⟨i, List.mem_range.2 hi, ht⟩, .inl ht, .inl ht⟩
      · rw [List.mem_dedup] at ht
        obtain ⟨j, hj, htj⟩ := hσ.2 pre i post h t ht
        exact ⟨⟨j, List.mem_range.2 (mem_lt hσ.1 (by rw [h]; simp [hj])), htj⟩, .inr ⟨j, hj, htj⟩,
          .inr (.inr ⟨i, hi, ht, hnin⟩)⟩
    obtain ⟨l, hl1, hl2⟩ := hsub
    rw [← (hl1.map g.size).sum_eq]
    generalize (((List.range g.n).flatMap g.outs).dedup.filter fun t => decide (Live g pre i t)) = L at hl2
    clear hl1
    induction hl2 with
    | slnil => simp
    | cons a _ ih => simp only [List.map_cons, List.sum_cons]; have := hg.size a; linarith
    | cons_cons a _ ih => simp only [List.map_cons, List.sum_cons]; linarith
  rw [List.map_append, List.sum_append] at key
  unfold ownMem
  split
  · have : 0 ≤ ((g.ins i).dedup.map g.size).sum := by
      apply List.sum_nonneg
      intro a ha
      obtain ⟨t, _, rfl⟩ := List.mem_map.1 ha
      exact hg.size t
    linarith
  · exact key

theorem lbound_le_peak {g : MemGraph K} (hg : WF g) {σ : List ℕ} (hσ : IsSchedule g σ) {c : K}
    (hc : IsPeak g σ c) : g.lbound ≤ c := by
  obtain ⟨⟨i, hi, hl⟩, _⟩ := lbound_spec hg
  have : i ∈ σ := hσ.1.mem_iff.2 (List.mem_range.2 hi)
  obtain ⟨p, q, hpq⟩ := List.append_of_mem this
  rw [hl]
  exact (own_le_live hg hσ hpq).trans (hc.1 p i q hpq)

end MCT.MaxCut
