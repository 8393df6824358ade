import Mathlib.Algebra.BigOperators.Group.List.Lemmas
import Mathlib.Algebra.Order.BigOperators.Group.List
import Mathlib.Algebra.BigOperators.Group.Multiset.Basic
import Mathlib.Tactic.Linarith
import Verif.MaxCut.Spec

/-! Lemmas about valid orders, live tensors and the search. -/

set_option linter.unusedSectionVars false

namespace MCT.MaxCut
open MCT.MaxCutSpec (WF)

variable {K : Type} [Field K] [LinearOrder K] [IsStrictOrderedRing K]

/-- What an operation reads, dummies included. -/
def needs (g : MemGraph K) : Op → List Ten
  | .src => []
  | .real i => if (g.ins i).isEmpty then [.srcT] else (g.ins i).map Ten.real
  | .tgt => g.sinks.map Ten.real
  | .tgt2 => [.tgtT]

def IsOp (g : MemGraph K) : Op → Prop
  | .real i => i < g.n
  | _ => True

def Ready (g : MemGraph K) (pre : List Op) (o : Op) : Prop := ∀ t ∈ needs g o, ∃ q ∈ pre, t ∈ g.outsOf q

/-- Operations in an order in which they can run. -/
def Valid (g : MemGraph K) (l : List Op) : Prop :=
  ∀ pre o post, l = pre ++ o :: post → IsOp g o ∧ o ∉ pre ∧ Ready g pre o

theorem Valid.nil (g : MemGraph K) : Valid g [] := by
  intro pre o post h; simp at h

theorem Valid.prefix {g : MemGraph K} {a b : List Op} (h : Valid g (a ++ b)) : Valid g a := by
  intro pre o post hl
  exact h pre o (post ++ b) (by rw [hl]; simp)

theorem Valid.snoc {g : MemGraph K} {a : List Op} {o : Op} (h : Valid g a) (h1 : IsOp g o) (h2 : o ∉ a)
    (h3 : Ready g a o) : Valid g (a ++ [o]) := by
  intro pre x post hl
  rcases List.eq_nil_or_concat post with rfl | ⟨post', y, rfl⟩
  · have := List.append_inj' hl (by simp)
    simp only [List.cons.injEq, and_true] at this
    obtain ⟨rfl, rfl⟩ := this
    exact ⟨h1, h2, h3⟩
  · rw [List.concat_eq_append, ← List.cons_append, ← List.append_assoc] at hl
    have := List.append_inj' hl (by simp)
    exact h pre x post' this.1

theorem Valid.last {g : MemGraph K} {a : List Op} {o : Op} (h : Valid g (a ++ [o])) :
    IsOp g o ∧ o ∉ a ∧ Ready g a o := h a o [] rfl

theorem Valid.nodup {g : MemGraph K} : ∀ {l : List Op}, Valid g l → l.Nodup := by
  intro l
  induction l using List.reverseRecOn with
  | nil => intro _; simp
  | append_singleton l o ih =>
    intro h
    rw [List.nodup_append]
    refine ⟨ih h.prefix, by simp, ?_⟩
    intro a ha b hb
    rw [List.mem_singleton] at hb; subst hb
    rintro rfl
    exact h.last.2.1 ha

theorem Valid.isOp {g : MemGraph K} {l : List Op} (h : Valid g l) {o : Op} (ho : o ∈ l) : IsOp g o := by
  obtain ⟨pre, post, rfl⟩ := List.append_of_mem ho
  exact (h pre o post rfl).1

theorem mem_consumers {g : MemGraph K} {t i : ℕ} : i ∈ g.consumers t ↔ i < g.n ∧ t ∈ g.ins i := by
  simp [MemGraph.consumers]

theorem mem_sources {g : MemGraph K} {i : ℕ} : i ∈ g.sources ↔ i < g.n ∧ g.ins i = [] := by
  simp [MemGraph.sources]

theorem mem_tensors {g : MemGraph K} {t : ℕ} : t ∈ g.tensors ↔ ∃ i < g.n, t ∈ g.outs i := by
  simp [MemGraph.tensors]

theorem mem_sinks {g : MemGraph K} {t : ℕ} :
    t ∈ g.sinks ↔ (∃ i < g.n, t ∈ g.outs i) ∧ ∀ c < g.n, t ∉ g.ins c := by
  simp only [MemGraph.sinks, List.mem_filter, mem_tensors, List.isEmpty_iff]
  refine and_congr_right (fun _ => ?_)
  rw [List.eq_nil_iff_forall_not_mem]
  constructor
  · intro h c hc ht; exact h c (mem_consumers.2 ⟨hc, ht⟩)
  · intro h c hc; exact h c (mem_consumers.1 hc).1 (mem_consumers.1 hc).2

theorem mem_children {g : MemGraph K} {t : Ten} {o : Op} : o ∈ g.children t ↔ IsOp g o ∧ t ∈ needs g o := by
  cases t with
  | srcT =>
    cases o with
    | real i =>
      simp only [MemGraph.children, List.mem_map, Op.real.injEq, exists_eq_right, mem_sources, IsOp, needs,
        List.isEmpty_iff]
      refine and_congr_right (fun _ => ?_)
      by_cases h : g.ins i = [] <;> simp [h]
    | _ => simp [MemGraph.children, needs]
  | real t =>
    cases o with
    | real i =>
      simp only [MemGraph.children, List.mem_append, List.mem_map, Op.real.injEq, exists_eq_right,
        mem_consumers, IsOp, needs, List.isEmpty_iff]
      by_cases h : g.ins i = []
      · by_cases hs : t ∈ g.sinks <;> simp [h, hs]
      · by_cases hs : t ∈ g.sinks <;> simp [h, hs]
    | tgt => by_cases hs : t ∈ g.sinks <;> simp [MemGraph.children, needs, IsOp, hs]
    | src => by_cases hs : t ∈ g.sinks <;> simp [MemGraph.children, needs, hs]
    | tgt2 => by_cases hs : t ∈ g.sinks <;> simp [MemGraph.children, needs, hs]
  | tgtT =>
    cases o with
    | real i => by_cases h : g.ins i = [] <;> simp [MemGraph.children, needs, h]
    | _ => simp [MemGraph.children, needs, IsOp]
  | tgtT2 =>
    cases o with
    | real i => by_cases h : g.ins i = [] <;> simp [MemGraph.children, needs, h]
    | _ => simp [MemGraph.children, needs]

theorem sinks_ne {g : MemGraph K} (hg : WF g) : g.sinks ≠ [] := by
  have hpos := hg.pos
  obtain ⟨t, ht⟩ := List.exists_mem_of_ne_nil _ (hg.outs (g.n - 1) (by omega))
  have : t ∈ g.sinks := by
    rw [mem_sinks]
    refine ⟨⟨g.n - 1, by omega, ht⟩, ?_⟩
    intro c hc hin
    obtain ⟨i, hi, hti⟩ := hg.ins c hc t hin
    have := hg.single i (by omega) (g.n - 1) (by omega) t hti ht
    omega
  exact List.ne_nil_of_mem this

theorem needs_ne {g : MemGraph K} (hg : WF g) {o : Op} (h : o ≠ .src) : needs g o ≠ [] := by
  cases o with
  | src => exact absurd rfl h
  | real i =>
    simp only [needs]
    by_cases hi : g.ins i = [] <;> simp [hi]
  | tgt => simpa [needs] using sinks_ne hg
  | tgt2 => simp [needs]

theorem parents_sub {g : MemGraph K} {o : Op} {t : Ten} (h : t ∈ g.parents o) : t ∈ needs g o := by
  cases o with
  | real i =>
    simp only [MemGraph.parents, needs] at *
    by_cases hi : (g.ins i).isEmpty = true
    · rw [if_pos hi] at h ⊢
      by_cases hb : g.isInput i = true
      · rw [if_pos hb] at h; exact h
      · rw [if_neg hb] at h; simp at h
    · rw [if_neg hi] at h ⊢; exact h
  | _ => exact h

theorem needs_of_parents {g : MemGraph K} {o : Op} {t : Ten} (h : t ∈ needs g o) : t ∈ g.parents o ∨ t = .srcT := by
  cases o with
  | real i =>
    simp only [MemGraph.parents, needs] at *
    by_cases hi : (g.ins i).isEmpty = true
    · rw [if_pos hi] at h; right; simpa using h
    · rw [if_neg hi] at h ⊢; exact .inl h
  | _ => exact .inl h

/-- Every tensor has one producer among the operations. -/
theorem producer_unique {g : MemGraph K} (hg : WF g) {a b : Op} (ha : IsOp g a) (hb : IsOp g b) {t : Ten}
    (h1 : t ∈ g.outsOf a) (h2 : t ∈ g.outsOf b) : a = b := by
  cases a <;> cases b <;> simp_all [MemGraph.outsOf, IsOp]
  rename_i i j
  obtain ⟨x, hx, rfl⟩ := h1
  exact hg.single i ha j hb x hx (by simpa using h2)

theorem mem_producers {g : MemGraph K} {o : Op} {t : Ten} :
    o ∈ g.producers t ↔ IsOp g o ∧ t ∈ g.outsOf o := by
  cases t <;> cases o <;> simp [MemGraph.producers, MemGraph.outsOf, IsOp]

theorem src_first {g : MemGraph K} (hg : WF g) {o : Op} {l : List Op} (h : Valid g (o :: l)) : o = .src := by
  by_contra hne
  obtain ⟨t, ht⟩ := List.exists_mem_of_ne_nil _ (needs_ne hg hne)
  obtain ⟨q, hq, _⟩ := (h [] o l rfl).2.2 t ht
  simp at hq

theorem src_mem {g : MemGraph K} (hg : WF g) {l : List Op} (h : Valid g l) (hne : l ≠ []) : Op.src ∈ l := by
  cases l with
  | nil => exact absurd rfl hne
  | cons o l => rw [src_first hg h]; simp

/-! ### Live tensors -/

/-- Live while `x` runs after `pre`. -/
def LiveX (g : MemGraph K) (pre : List Op) (x : Op) (t : Ten) : Prop :=
  (∃ q ∈ pre ++ [x], t ∈ g.outsOf q) ∧ (t ∈ g.outsOf x ∨ ∃ o ∈ g.children t, o ∉ pre)

instance (g : MemGraph K) (pre : List Op) (x : Op) (t : Ten) : Decidable (LiveX g pre x t) := by
  unfold LiveX; infer_instance

/-- Live between steps. -/
def LiveC (g : MemGraph K) (order : List Op) (t : Ten) : Prop :=
  (∃ q ∈ order, t ∈ g.outsOf q) ∧ ∃ o ∈ g.children t, o ∉ order

/-- All tensors. -/
def allTens (g : MemGraph K) : List Ten := .srcT :: .tgtT :: .tgtT2 :: g.tensors.map Ten.real

theorem allTens_nodup (g : MemGraph K) : (allTens g).Nodup := by
  have : (g.tensors.map Ten.real).Nodup :=
    (List.nodup_dedup _).map (fun a b h => by simpa using h)
  simp [allTens, this]

theorem mem_allTens {g : MemGraph K} {o : Op} (ho : IsOp g o) {t : Ten} (h : t ∈ g.outsOf o) : t ∈ allTens g := by
  cases o with
  | real i =>
    simp only [MemGraph.outsOf, List.mem_map] at h
    obtain ⟨x, hx, rfl⟩ := h
    simp only [allTens, List.mem_cons, List.mem_map]
    exact .inr (.inr (.inr ⟨x, mem_tensors.2 ⟨i, ho, hx⟩, rfl⟩))
  | _ => simp_all [MemGraph.outsOf, allTens]

/-- Memory while `x` runs after `pre`. -/
def stepMem (g : MemGraph K) (pre : List Op) (x : Op) : K :=
  (((allTens g).filter fun t => decide (LiveX g pre x t)).map g.sizeOf).sum

theorem liveX_congr {g : MemGraph K} {pre pre' : List Op} (h : ∀ o, o ∈ pre ↔ o ∈ pre') (x : Op) (t : Ten) :
    LiveX g pre x t ↔ LiveX g pre' x t := by
  unfold LiveX
  simp only [List.mem_append, h]

theorem stepMem_congr {g : MemGraph K} {pre pre' : List Op} (h : ∀ o, o ∈ pre ↔ o ∈ pre') (x : Op) :
    stepMem g pre x = stepMem g pre' x := by
  unfold stepMem
  congr 2
  apply List.filter_congr
  intro t _
  simp only [liveX_congr h x t]

theorem sizeOf_nonneg {g : MemGraph K} (hg : WF g) (t : Ten) : 0 ≤ g.sizeOf t := by
  cases t <;> simp [MemGraph.sizeOf, hg.size]

theorem stepMem_nonneg {g : MemGraph K} (hg : WF g) (pre : List Op) (x : Op) : 0 ≤ stepMem g pre x := by
  apply List.sum_nonneg
  intro a ha
  obtain ⟨t, _, rfl⟩ := List.mem_map.1 ha
  exact sizeOf_nonneg hg t

/-- What is known of a cut in the search. -/
structure CutInv (g : MemGraph K) (c : Cut K) (pre : List Op) (x : Op) : Prop where
  order : c.order = pre ++ [x]
  valid : Valid g c.order
  nodup : c.mem.Nodup
  mem : ∀ t, t ∈ c.mem ↔ LiveX g pre x t
  total : c.total = (c.mem.map g.sizeOf).sum

theorem CutInv.total_eq {g : MemGraph K} {c : Cut K} {pre : List Op} {x : Op} (h : CutInv g c pre x) :
    c.total = stepMem g pre x := by
  rw [h.total]
  unfold stepMem
  apply List.Perm.sum_eq
  apply List.Perm.map
  rw [List.perm_ext_iff_of_nodup h.nodup ((allTens_nodup g).filter _)]
  intro t
  rw [h.mem, List.mem_filter, decide_eq_true_eq]
  refine ⟨fun hl => ⟨?_, hl⟩, fun hl => hl.2⟩
  obtain ⟨q, hq, ht⟩ := hl.1
  exact mem_allTens (h.valid.isOp (h.order ▸ hq)) ht

theorem mem_clean {g : MemGraph K} {c : Cut K} {pre : List Op} {x : Op} (h : CutInv g c pre x) (t : Ten) :
    t ∈ (clean g c).mem ↔ LiveC g c.order t := by
  simp only [clean, List.mem_filter, h.mem, Bool.not_eq_true', List.all_eq_false, decide_eq_true_eq, LiveC]
  constructor
  · rintro ⟨hl, o, ho, hno⟩
    exact ⟨h.order ▸ hl.1, o, ho, hno⟩
  · rintro ⟨hp, o, ho, hno⟩
    refine ⟨⟨h.order ▸ hp, .inr ⟨o, ho, ?_⟩⟩, o, ho, hno⟩
    intro hm; apply hno; rw [h.order]; simp [hm]

theorem clean_clean_mem {g : MemGraph K} {c : Cut K} (t : Ten) :
    t ∈ (clean g (clean g c)).mem ↔ t ∈ (clean g c).mem := by
  simp only [clean, List.mem_filter]
  constructor
  · exact fun h => h.1
  · exact fun h => ⟨h, h.2⟩

theorem mem_candidates {g : MemGraph K} {cc : Cut K} {o : Op} :
    o ∈ candidates g cc ↔ ∃ t ∈ cc.mem, o ∈ g.children t ∧ canExpand g o cc = true := by
  unfold candidates
  have : ∀ (m : List Ten) (acc : List Op),
      o ∈ m.foldl (fun acc t => acc ++ (g.children t).filter fun o => canExpand g o cc && decide (o ∉ acc)) acc
        ↔ o ∈ acc ∨ ∃ t ∈ m, o ∈ g.children t ∧ canExpand g o cc = true := by
    intro m
    induction m with
    | nil => intro acc; simp
    | cons t m ih =>
      intro acc
      rw [List.foldl_cons, ih]
      simp only [List.mem_append, List.mem_filter, Bool.and_eq_true, decide_eq_true_eq, List.mem_cons]
      constructor
      · rintro ((h | ⟨h1, h2, h3⟩) | ⟨s, hs, h⟩)
        · exact .inl h
        · exact .inr ⟨t, .inl rfl, h1, h2⟩
        · exact .inr ⟨s, .inr hs, h⟩
      · rintro (h | ⟨s, rfl | hs, h⟩)
        · exact .inl (.inl h)
        · by_cases ha : o ∈ acc
          · exact .inl (.inl ha)
          · exact .inl (.inr ⟨h.1, h.2, ha⟩)
        · exact .inr ⟨s, hs, h⟩
  simpa using this cc.mem []

/-- The operations by which a cut is expanded are those that can run next. -/
theorem candidates_iff {g : MemGraph K} (hg : WF g) {c : Cut K} {pre : List Op} {x : Op}
    (h : CutInv g c pre x) (o : Op) :
    o ∈ candidates g (clean g c) ↔ IsOp g o ∧ o ∉ c.order ∧ Ready g c.order o := by
  have hsrc : Op.src ∈ c.order := src_mem hg h.valid (by rw [h.order]; simp)
  rw [mem_candidates]
  constructor
  · rintro ⟨t, ht, hch, hce⟩
    simp only [canExpand, Bool.and_eq_true, decide_eq_true_eq, List.all_eq_true] at hce
    obtain ⟨⟨h1, _⟩, h3⟩ := hce
    refine ⟨(mem_children.1 hch).1, h1, ?_⟩
    intro s hs
    rcases needs_of_parents hs with hp | hp
    · have := h3 s hp
      rw [clean_clean_mem, mem_clean h] at this
      exact this.1
    · subst hp; exact ⟨.src, hsrc, by simp [MemGraph.outsOf]⟩
  · rintro ⟨h1, h2, h3⟩
    have hns : o ≠ .src := by rintro rfl; exact h2 hsrc
    have hl : ∀ t ∈ needs g o, t ∈ (clean g c).mem := by
      intro t ht
      rw [mem_clean h]
      exact ⟨h3 t ht, o, mem_children.2 ⟨h1, ht⟩, h2⟩
    obtain ⟨t, ht⟩ := List.exists_mem_of_ne_nil _ (needs_ne hg hns)
    refine ⟨t, hl t ht, mem_children.2 ⟨h1, ht⟩, ?_⟩
    simp only [canExpand, Bool.and_eq_true, decide_eq_true_eq, List.all_eq_true, Bool.not_eq_true',
      List.isEmpty_eq_false_iff]
    refine ⟨⟨h2, List.ne_nil_of_mem (hl t ht)⟩, ?_⟩
    intro s hs
    rw [clean_clean_mem]
    exact hl s (parents_sub hs)

/-- A freshly written tensor is not yet in memory. -/
theorem fresh {g : MemGraph K} (hg : WF g) {l : List Op} {o : Op} (hv : Valid g l) (ho : IsOp g o) (h : o ∉ l)
    {t : Ten} (ht : t ∈ g.outsOf o) : ¬ ∃ q ∈ l, t ∈ g.outsOf q := by
  rintro ⟨q, hq, hqt⟩
  exact h (producer_unique hg (hv.isOp hq) ho hqt ht ▸ hq)

theorem expand_inv {g : MemGraph K} (hg : WF g) {c : Cut K} {pre : List Op} {x : Op} (h : CutInv g c pre x)
    {c' : Cut K} (hc : c' ∈ expand g c) : ∃ o, CutInv g c' c.order o ∧ o ∈ candidates g (clean g c) := by
  simp only [expand, List.mem_map] at hc
  obtain ⟨o, ho, rfl⟩ := hc
  obtain ⟨h1, h2, h3⟩ := (candidates_iff hg h o).1 ho
  have hnd : (clean g c).mem.Nodup := h.nodup.filter _
  refine ⟨o, ⟨rfl, h.valid.snoc h1 h2 h3, List.nodup_dedup _, ?_, ?_⟩, ho⟩
  · intro t
    simp only [List.mem_dedup, List.mem_append, mem_clean h]
    unfold LiveC LiveX
    constructor
    · rintro (⟨⟨q, hq, hqt⟩, hch⟩ | ht)
      · exact ⟨⟨q, by simp [hq], hqt⟩, .inr hch⟩
      · exact ⟨⟨o, by simp, ht⟩, .inl ht⟩
    · rintro ⟨⟨q, hq, hqt⟩, ht | hch⟩
      · exact .inr ht
      · rcases List.mem_append.1 hq with hq | hq
        · exact .inl ⟨⟨q, hq, hqt⟩, hch⟩
        · rw [List.mem_singleton] at hq; subst hq; exact .inr hqt
  · have hdisj : List.Disjoint (clean g c).mem (g.outsOf o).dedup := by
      rw [List.disjoint_left]
      intro t ht ht'
      rw [mem_clean h] at ht
      exact fresh hg h.valid h1 h2 (List.mem_dedup.1 ht') ht.1
    have hp : ((clean g c).mem ++ g.outsOf o).dedup.Perm ((clean g c).mem ++ (g.outsOf o).dedup) := by
      rw [List.perm_ext_iff_of_nodup (List.nodup_dedup _)
        (List.nodup_append'.2 ⟨hnd, List.nodup_dedup _, hdisj⟩)]
      intro t; simp
    rw [(hp.map g.sizeOf).sum_eq, List.map_append, List.sum_append]
    rfl

theorem expand_complete {g : MemGraph K} {c : Cut K} {o : Op} (ho : o ∈ candidates g (clean g c)) :
    ∃ c' ∈ expand g c, c'.order = c.order ++ [o] := by
  exact ⟨_, List.mem_map.2 ⟨o, ho, rfl⟩, rfl⟩

end MCT.MaxCut
