/-
Options of a node filtered by its consumers (C50), and quantization preserving layers (C84).
-/
import Verif.Candidates.Model
import Verif.Tpc.Filters
import Mathlib.Data.List.Perm.Basic
import Mathlib.Data.List.Pairwise
import Mathlib.Algebra.BigOperators.Group.List.Basic

namespace MCT.CandSpec
open MCT.Py MCT.Tpc MCT.Cand

/-- The options of a node preserve the quantization of its input (all its configurations should agree; the
code reads the first). -/
def Preserving (g : GGraph) (n : Nat) : Prop :=
  ∃ q c cs, (g.info n).options = some q ∧ q.configs = c :: cs ∧ c.preserving = true

/-- The nodes that read the output of `n`, directly or through preserving nodes. -/
inductive Consumer (g : GGraph) (n : Nat) : Nat → Prop
  | direct {m} : m ∈ g.next n → Consumer g n m
  | through {m k} : Consumer g n m → Preserving g m → k ∈ g.next m → Consumer g n k

/-- A consumer reads activations of this number of bits: each of its configurations that works on quantized
activations supports an input with as many bits or more. -/
def Reads (g : GGraph) (m : Nat) (bits : Nat) : Prop :=
  ∀ q, (g.info m).options = some q → ∀ c ∈ q.configs, (c.enableAct = true ∨ c.preserving = true) →
    ∃ b ∈ c.inBits, bits ≤ b

/-- The graph has no cycles: a rank, bounded by the number `N`, increases along the edges. -/
def Acyclic (g : GGraph) : Prop := ∃ (rank : Nat → Nat) (N : Nat), (∀ n, rank n ≤ N) ∧ ∀ n, ∀ m ∈ g.next n, rank n < rank m

/-- All options are known, have a configuration, and say which inputs they support. -/
def Complete (g : GGraph) : Prop :=
  ∀ n, ∃ q, (g.info n).options = some q ∧ q.configs ≠ [] ∧ q.base ∈ q.configs ∧ ∀ c ∈ q.configs, c.inBits ≠ []

end MCT.CandSpec

namespace MCT.Cand
open MCT.Py MCT.Tpc MCT.CandSpec

set_option linter.unusedSectionVars false
set_option linter.unusedVariables false

/-! ### The consumers -/

theorem gather_sound (g : GGraph) (n : Nat) (f : Nat) (w acc res : List Nat)
    (hw : ∀ m ∈ w, Consumer g n m) (ha : ∀ m ∈ acc, Consumer g n m)
    (h : gather g f w acc = some res) : ∀ m ∈ res, Consumer g n m := by
  induction f generalizing w acc with
  | zero =>
    cases w with
    | nil => simp only [gather, Option.some.injEq] at h; subst h; exact ha
    | cons x w => simp [gather] at h
  | succ f ih =>
    cases w with
    | nil => simp only [gather, Option.some.injEq] at h; subst h; exact ha
    | cons x w =>
      simp only [gather] at h
      cases ho : (g.info x).options with
      | none => rw [ho] at h; simp at h
      | some q =>
        rw [ho] at h
        simp only at h
        cases hc : q.configs with
        | nil => rw [hc] at h; simp at h
        | cons c cs =>
          rw [hc] at h
          simp only at h
          have hx := hw x (by simp)
          refine ih _ _ ?_ ?_ h
          · intro m hm
            split at hm
            · rename_i hp
              rcases List.mem_append.mp hm with hm | hm
              · exact hw m (by simp [hm])
              · exact Consumer.through hx ⟨q, c, cs, ho, hc, hp⟩ hm
            · exact hw m (by simp [hm])
          · intro m hm
            rcases List.mem_append.mp hm with hm | hm
            · exact ha m hm
            · simp only [List.mem_singleton] at hm; subst hm; exact hx

/-- What is in the lists of the loop when it ends well: everything of the work list, and the next nodes of
all preserving nodes collected. -/
theorem gather_closed (g : GGraph) (f : Nat) (w acc res : List Nat)
    (hacc : ∀ m ∈ acc, Preserving g m → ∀ k ∈ g.next m, k ∈ acc ∨ k ∈ w)
    (h : gather g f w acc = some res) :
    (∀ m ∈ w, m ∈ res) ∧ (∀ m ∈ acc, m ∈ res) ∧
      ∀ m ∈ res, Preserving g m → ∀ k ∈ g.next m, k ∈ res := by
  induction f generalizing w acc with
  | zero =>
    cases w with
    | nil =>
      simp only [gather, Option.some.injEq] at h; subst h
      refine ⟨by simp, fun m h => h, ?_⟩
      intro m hm hp k hk
      rcases hacc m hm hp k hk with h | h
      · exact h
      · simp at h
    | cons x w => simp [gather] at h
  | succ f ih =>
    cases w with
    | nil =>
      simp only [gather, Option.some.injEq] at h; subst h
      refine ⟨by simp, fun m h => h, ?_⟩
      intro m hm hp k hk
      rcases hacc m hm hp k hk with h | h
      · exact h
      · simp at h
    | cons x w =>
      simp only [gather] at h
      cases ho : (g.info x).options with
      | none => rw [ho] at h; simp at h
      | some q =>
        rw [ho] at h
        simp only at h
        cases hc : q.configs with
        | nil => rw [hc] at h; simp at h
        | cons c cs =>
          rw [hc] at h
          simp only at h
          obtain ⟨i1, i2, i3⟩ := ih _ _ (by
            intro m hm hp k hk
            rcases List.mem_append.mp hm with hm | hm
            · rcases hacc m hm hp k hk with h1 | h1
              · exact Or.inl (List.mem_append_left _ h1)
              · rcases List.mem_cons.mp h1 with h1 | h1
                · subst h1; exact Or.inl (by simp)
                · refine Or.inr ?_
                  split
                  · exact List.mem_append_left _ h1
                  · exact h1
            · simp only [List.mem_singleton] at hm
              subst hm
              obtain ⟨q', c', cs', e1, e2, e3⟩ := hp
              rw [ho] at e1
              simp only [Option.some.injEq] at e1
              subst e1
              rw [hc] at e2
              simp only [List.cons.injEq] at e2
              rw [← e2.1] at e3
              rw [if_pos e3]
              exact Or.inr (List.mem_append_right _ hk)) h
          refine ⟨?_, ?_, i3⟩
          · intro m hm
            rcases List.mem_cons.mp hm with hm | hm
            · subst hm; exact i2 _ (by simp)
            · apply i1
              split
              · exact List.mem_append_left _ hm
              · exact hm
          · intro m hm
            exact i2 m (List.mem_append_left _ hm)

theorem gather_exact (g : GGraph) (n : Nat) (f : Nat) (res : List Nat)
    (h : gather g f (g.next n) [] = some res) (m : Nat) : m ∈ res ↔ Consumer g n m := by
  constructor
  · exact gather_sound g n f (g.next n) [] res (fun m hm => Consumer.direct hm) (by simp) h m
  · obtain ⟨h1, _, h3⟩ := gather_closed g f (g.next n) [] res (by simp) h
    intro hc
    induction hc with
    | direct hm => exact h1 _ hm
    | through _ hp hk ih => exact h3 _ ih hp _ hk

/-- Bound on the number of steps of the loop from a node. -/
def cost (g : GGraph) : Nat → Nat → Nat
  | 0, _ => 1
  | k + 1, n => 1 + ((g.next n).map (cost g k)).sum

theorem cost_stable (g : GGraph) (rank : Nat → Nat) (N : Nat) (hN : ∀ n, rank n ≤ N)
    (hr : ∀ n, ∀ m ∈ g.next n, rank n < rank m) (k n : Nat) (hk : N - rank n ≤ k) :
    cost g (k + 1) n = cost g k n := by
  induction k generalizing n with
  | zero =>
    have : g.next n = [] := by
      cases hn : g.next n with
      | nil => rfl
      | cons m ms =>
        have h1 := hr n m (by rw [hn]; simp)
        have h2 := hN m
        omega
    simp [cost, this]
  | succ k ih =>
    show 1 + ((g.next n).map (cost g (k + 1))).sum = 1 + ((g.next n).map (cost g k)).sum
    congr 2
    apply List.map_congr_left
    intro m hm
    apply ih
    have h1 := hr n m hm
    have h2 := hN m
    omega

theorem gather_ends (g : GGraph) (hc : Complete g) (W : Nat → Nat)
    (hW : ∀ n, 1 + ((g.next n).map W).sum ≤ W n) (f : Nat) (w acc : List Nat)
    (hf : (w.map W).sum ≤ f) : ∃ res, gather g f w acc = some res := by
  induction f generalizing w acc with
  | zero =>
    cases w with
    | nil => exact ⟨acc, rfl⟩
    | cons x w =>
      have := hW x
      simp only [List.map_cons, List.sum_cons] at hf
      omega
  | succ f ih =>
    cases w with
    | nil => exact ⟨acc, rfl⟩
    | cons x w =>
      have hx := hW x
      simp only [List.map_cons, List.sum_cons] at hf
      obtain ⟨q, h1, h2, _⟩ := hc x
      simp only [gather, h1]
      cases hq : q.configs with
      | nil => exact absurd hq h2
      | cons c cs =>
        simp only
        apply ih
        split
        · rw [List.map_append, List.sum_append]; omega
        · omega

/-! ### The filter -/

theorem maxIn_spec {c : OpCfg Name} {b : Nat} (h : maxIn c = some b) :
    b ∈ c.inBits ∧ ∀ x ∈ c.inBits, x ≤ b := by
  unfold maxIn at h
  cases hc : c.inBits with
  | nil => rw [hc] at h; simp at h
  | cons a as =>
    rw [hc] at h
    simp only [Option.some.injEq] at h
    subst h
    clear hc
    induction as generalizing a with
    | nil => simp
    | cons y ys ih =>
      rw [List.foldl_cons]
      obtain ⟨h1, h2⟩ := ih (max a y)
      constructor
      · rcases List.mem_cons.mp h1 with h1 | h1
        · rw [h1]
          rcases le_total a y with h | h
          · rw [max_eq_right h]; simp
          · rw [max_eq_left h]; simp
        · simp [h1]
      · intro x hx
        have hm := h2 (max a y) (by simp)
        rcases List.mem_cons.mp hx with hx | hx
        · subst hx; exact le_trans (le_max_left _ _) hm
        · rcases List.mem_cons.mp hx with hx | hx
          · subst hx; exact le_trans (le_max_right _ _) hm
          · exact h2 x (by simp [hx])

theorem maxIns_forall {cs : List (OpCfg Name)} {bs : List Nat} (h : maxIns cs = some bs) :
    List.Forall₂ (fun c b => maxIn c = some b) cs bs := by
  induction cs generalizing bs with
  | nil => simp only [maxIns, Option.some.injEq] at h; subst h; exact List.Forall₂.nil
  | cons c cs ih =>
    simp only [maxIns] at h
    cases hc : maxIn c with
    | none => rw [hc] at h; simp at h
    | some b =>
      rw [hc] at h
      simp only [Option.map_eq_some_iff] at h
      obtain ⟨r, h1, h2⟩ := h
      subst h2
      exact List.Forall₂.cons hc (ih h1)

theorem forall2_left {α β : Type} {R : α → β → Prop} {l : List α} {l' : List β}
    (h : List.Forall₂ R l l') {a : α} (ha : a ∈ l) : ∃ b ∈ l', R a b := by
  induction h with
  | nil => simp at ha
  | cons h1 _ ih =>
    rcases List.mem_cons.mp ha with ha | ha
    · subst ha; exact ⟨_, by simp, h1⟩
    · obtain ⟨b, hb, hr⟩ := ih ha; exact ⟨b, by simp [hb], hr⟩

theorem forall2_right {α β : Type} {R : α → β → Prop} {l : List α} {l' : List β}
    (h : List.Forall₂ R l l') {b : β} (hb : b ∈ l') : ∃ a ∈ l, R a b := by
  induction h with
  | nil => simp at hb
  | cons h1 _ ih =>
    rcases List.mem_cons.mp hb with hb | hb
    · subst hb; exact ⟨_, by simp, h1⟩
    · obtain ⟨b, hb, hr⟩ := ih hb; exact ⟨b, by simp [hb], hr⟩

theorem maxIns_total {cs : List (OpCfg Name)} (h : ∀ c ∈ cs, c.inBits ≠ []) :
    ∃ bs, maxIns cs = some bs := by
  induction cs with
  | nil => exact ⟨[], rfl⟩
  | cons c cs ih =>
    obtain ⟨bs, hb⟩ := ih (fun c hc => h c (by simp [hc]))
    have : ∃ b, maxIn c = some b := by
      unfold maxIn
      cases hc : c.inBits with
      | nil => exact absurd hc (h c (by simp))
      | cons a as => exact ⟨_, rfl⟩
    obtain ⟨b, hb'⟩ := this
    exact ⟨b :: bs, by simp [maxIns, hb', hb]⟩

theorem foldl_min_le (b : Nat) (bs : List Nat) : ∀ x ∈ b :: bs, bs.foldl min b ≤ x := by
  induction bs generalizing b with
  | nil => simp
  | cons y ys ih =>
    rw [List.foldl_cons]
    intro x hx
    have hm := ih (min b y) (min b y) (by simp)
    rcases List.mem_cons.mp hx with hx | hx
    · subst hx; exact le_trans hm (min_le_left _ _)
    · rcases List.mem_cons.mp hx with hx | hx
      · subst hx; exact le_trans hm (min_le_right _ _)
      · exact ih _ x (by simp [hx])

theorem foldl_min_mem (b : Nat) (bs : List Nat) : bs.foldl min b ∈ b :: bs := by
  induction bs generalizing b with
  | nil => simp
  | cons y ys ih =>
    rw [List.foldl_cons]
    rcases List.mem_cons.mp (ih (min b y)) with h | h
    · rw [h]
      rcases le_total b y with h | h
      · rw [min_eq_left h]; simp
      · rw [min_eq_right h]; simp
    · simp [h]

theorem lastMax_mem (c : OpCfg Name) (cs : List (OpCfg Name)) : lastMax c cs ∈ c :: cs := by
  unfold lastMax
  induction cs generalizing c with
  | nil => simp
  | cons d ds ih =>
    rw [List.foldl_cons]
    split
    · exact List.mem_cons_of_mem _ (ih d)
    · rcases List.mem_cons.mp (ih c) with h | h
      · rw [h]; simp
      · simp [h]

theorem lastMax_ge (c : OpCfg Name) (cs : List (OpCfg Name)) :
    ∀ d ∈ c :: cs, d.actBits ≤ (lastMax c cs).actBits := by
  unfold lastMax
  induction cs generalizing c with
  | nil => simp
  | cons e es ih =>
    rw [List.foldl_cons]
    intro d hd
    split
    · rename_i h
      rcases List.mem_cons.mp hd with hd | hd
      · subst hd; exact le_trans h (ih e e (by simp))
      · exact ih e d hd
    · rename_i h
      rcases List.mem_cons.mp hd with hd | hd
      · subst hd; exact ih d d (by simp)
      · rcases List.mem_cons.mp hd with hd | hd
        · subst hd; exact le_trans (by omega) (ih c c (by simp))
        · exact ih c d (by simp [hd])

theorem optionsOf_forall {g : GGraph} {ns : List Nat} {qs : List (Qco Name)} (h : optionsOf g ns = some qs) :
    List.Forall₂ (fun n q => (g.info n).options = some q) ns qs := by
  induction ns generalizing qs with
  | nil => simp only [optionsOf, Option.some.injEq] at h; subst h; exact List.Forall₂.nil
  | cons n ns ih =>
    simp only [optionsOf] at h
    cases hc : (g.info n).options with
    | none => rw [hc] at h; simp at h
    | some b =>
      rw [hc] at h
      simp only [Option.map_eq_some_iff] at h
      obtain ⟨r, h1, h2⟩ := h
      subst h2
      exact List.Forall₂.cons hc (ih h1)

/-- The configurations of the consumers that restrict the node. -/
def Quantized (qs : List (Qco Name)) (d : OpCfg Name) : Prop :=
  ∃ q ∈ qs, d ∈ q.configs ∧ (d.enableAct = true ∨ d.preserving = true)

theorem quantized_mem (qs : List (Qco Name)) (d : OpCfg Name) :
    d ∈ (qs.flatMap (·.configs)).filter (fun c => c.enableAct || c.preserving) ↔ Quantized qs d := by
  simp only [List.mem_filter, List.mem_flatMap, Bool.or_eq_true, Quantized]
  constructor
  · rintro ⟨⟨q, h1, h2⟩, h3⟩; exact ⟨q, h1, h2, h3⟩
  · rintro ⟨q, h1, h2, h3⟩; exact ⟨⟨q, h1, h2⟩, h3⟩

theorem filterBy_result {q : Qco Name} {qs : List (Qco Name)} {b : OpCfg Name} {os : List (OpCfg Name)}
    (h : filterBy q qs = some (b, os)) :
    (∀ c ∈ os, c ∈ q.configs ∧ ∀ d, Quantized qs d → ∃ x ∈ d.inBits, c.actBits ≤ x) ∧
    (∀ c ∈ q.configs, (∀ d, Quantized qs d → ∃ x ∈ d.inBits, c.actBits ≤ x) → c ∈ os) ∧
    os.Sublist q.configs ∧ (q.configs ≠ [] → os ≠ []) ∧
    ((b = q.base ∧ ((∃ d, Quantized qs d) →
        ∀ q' ∈ qs, ∃ x ∈ q'.base.inBits, q.base.actBits ≤ x)) ∨
      (b ∈ os ∧ ∀ c ∈ os, c.actBits ≤ b.actBits)) := by
  unfold filterBy at h
  split at h
  · rename_i he
    rw [List.isEmpty_iff] at he
    subst he
    simp only [Option.some.injEq, Prod.mk.injEq] at h
    obtain ⟨h1, h2⟩ := h
    subst h1; subst h2
    have hno : ∀ d, ¬ Quantized [] d := by rintro d ⟨q, hq, _⟩; simp at hq
    exact ⟨fun c hc => ⟨hc, fun d hd => absurd hd (hno d)⟩, fun c hc _ => hc, List.Sublist.refl _,
      fun h => h, Or.inl ⟨rfl, fun ⟨d, hd⟩ => absurd hd (hno d)⟩⟩
  · cases hm : maxIns ((qs.flatMap (·.configs)).filter (fun c => c.enableAct || c.preserving)) with
    | none => rw [hm] at h; simp at h
    | some bits =>
      rw [hm] at h
      have hf := maxIns_forall hm
      cases bits with
      | nil =>
        simp only [Option.some.injEq, Prod.mk.injEq] at h
        obtain ⟨h1, h2⟩ := h
        subst h1; subst h2
        have hno : ∀ d, ¬ Quantized qs d := by
          intro d hd
          rw [← quantized_mem] at hd
          obtain ⟨b, hb, _⟩ := forall2_left hf hd
          simp at hb
        exact ⟨fun c hc => ⟨hc, fun d hd => absurd hd (hno d)⟩, fun c hc _ => hc, List.Sublist.refl _,
          fun h => h, Or.inl ⟨rfl, fun ⟨d, hd⟩ => absurd hd (hno d)⟩⟩
      | cons b0 bs =>
        simp only at h
        have key : ∀ c : OpCfg Name, c.actBits ≤ bs.foldl min b0 ↔
            ∀ d, Quantized qs d → ∃ x ∈ d.inBits, c.actBits ≤ x := by
          intro c
          constructor
          · intro hle d hd
            rw [← quantized_mem] at hd
            obtain ⟨b, hb, hmax⟩ := forall2_left hf hd
            exact ⟨b, (maxIn_spec hmax).1, le_trans hle (foldl_min_le b0 bs b hb)⟩
          · intro hall
            obtain ⟨d, hd, hmax⟩ := forall2_right hf (foldl_min_mem b0 bs)
            rw [quantized_mem] at hd
            obtain ⟨x, hx, hle⟩ := hall d hd
            exact le_trans hle ((maxIn_spec hmax).2 x hx)
        generalize hos : q.configs.filter (fun c => decide (c.actBits ≤ bs.foldl min b0)) = os' at h
        have hsub : os'.Sublist q.configs := hos ▸ List.filter_sublist
        have hmem : ∀ c, c ∈ os' ↔ c ∈ q.configs ∧ ∀ d, Quantized qs d → ∃ x ∈ d.inBits, c.actBits ≤ x := by
          intro c
          rw [← hos, List.mem_filter, decide_eq_true_iff, key]
        cases os' with
        | nil => simp at h
        | cons c cs =>
          simp only at h
          cases hms : maxIns (qs.map (·.base)) with
          | none => rw [hms] at h; simp at h
          | some ms =>
            rw [hms] at h
            simp only at h
            have hfb := maxIns_forall hms
            split at h
            · simp only [Option.some.injEq, Prod.mk.injEq] at h
              obtain ⟨h1, h2⟩ := h
              subst h1; subst h2
              exact ⟨fun d hd => (hmem d).mp hd, fun d hd hh => (hmem d).mpr ⟨hd, hh⟩, hsub, fun _ => by simp,
                Or.inr ⟨lastMax_mem c cs, lastMax_ge c cs⟩⟩
            · rename_i hany
              simp only [Option.some.injEq, Prod.mk.injEq] at h
              obtain ⟨h1, h2⟩ := h
              subst h1; subst h2
              refine ⟨fun d hd => (hmem d).mp hd, fun d hd hh => (hmem d).mpr ⟨hd, hh⟩, hsub, fun _ => by simp,
                Or.inl ⟨rfl, ?_⟩⟩
              intro _ q' hq'
              obtain ⟨m, hm1, hm2⟩ := forall2_left hfb (List.mem_map.mpr ⟨q', hq', rfl⟩)
              refine ⟨m, (maxIn_spec hm2).1, ?_⟩
              by_contra hlt
              apply hany
              rw [List.any_eq_true]
              exact ⟨m, hm1, by simpa using hlt⟩

/-- The restriction by all consumers, in terms of the graph. -/
theorem quantized_reads {g : GGraph} {n : Nat} {ms : List Nat} {qs : List (Qco Name)}
    (hm : ∀ m, m ∈ ms ↔ Consumer g n m) (ho : optionsOf g ms = some qs) (bits : Nat) :
    (∀ d, Quantized qs d → ∃ x ∈ d.inBits, bits ≤ x) ↔ ∀ m, Consumer g n m → Reads g m bits := by
  have hf := optionsOf_forall ho
  constructor
  · intro h m hc q hq c hcq hen
    obtain ⟨q', hq', he⟩ := forall2_left hf ((hm m).mpr hc)
    rw [hq] at he
    simp only [Option.some.injEq] at he
    subst he
    exact h c ⟨q, hq', hcq, hen⟩
  · rintro h d ⟨q, hq, hd, hen⟩
    obtain ⟨m, hm', he⟩ := forall2_right hf hq
    exact h m ((hm m).mp hm') q he d hd hen

/-- C50.  The options kept for a node are exactly those whose activation bits all consumers read, in the
same order; a consumer is a node reached directly or through quantization preserving nodes. -/
theorem C50_readable (g : GGraph) (fuel n : Nat) (q : Qco Name) (b : OpCfg Name) (os : List (OpCfg Name))
    (h : filterQco g fuel n q = some (b, os)) :
    os.Sublist q.configs ∧ (q.configs ≠ [] → os ≠ []) ∧
    ∀ c ∈ q.configs, c ∈ os ↔ ∀ m, Consumer g n m → Reads g m c.actBits := by
  unfold filterQco at h
  cases hg : gather g fuel (g.next n) [] with
  | none => rw [hg] at h; simp at h
  | some ms =>
    rw [hg] at h
    simp only at h
    cases ho : optionsOf g ms with
    | none => rw [ho] at h; simp at h
    | some qs =>
      rw [ho] at h
      simp only at h
      have hex := gather_exact g n fuel ms hg
      obtain ⟨h1, h2, h3, h4, _⟩ := filterBy_result h
      refine ⟨h3, h4, ?_⟩
      intro c hc
      rw [← quantized_reads hex ho]
      exact ⟨fun hh => (h1 c hh).2, h2 c hc⟩

/-- C50 (partial).  The base configuration is among the options kept when no configuration of a consumer that
works on quantized activations supports less than the base configuration of this consumer.  Otherwise it
can be outside (`C50_base_violated`), and the node is then refused. -/
theorem C50_base_partial (g : GGraph) (fuel n : Nat) (q : Qco Name) (b : OpCfg Name) (os : List (OpCfg Name))
    (hb : q.base ∈ q.configs)
    (hc : ∀ m, Consumer g n m → ∀ q', (g.info m).options = some q' → ∀ c ∈ q'.configs,
      (c.enableAct = true ∨ c.preserving = true) → ∀ x ∈ q'.base.inBits, ∃ y ∈ c.inBits, x ≤ y)
    (h : filterQco g fuel n q = some (b, os)) : b ∈ os := by
  have hr := C50_readable g fuel n q b os h
  unfold filterQco at h
  cases hg : gather g fuel (g.next n) [] with
  | none => rw [hg] at h; simp at h
  | some ms =>
    rw [hg] at h
    simp only at h
    cases ho : optionsOf g ms with
    | none => rw [ho] at h; simp at h
    | some qs =>
      rw [ho] at h
      simp only at h
      have hex := gather_exact g n fuel ms hg
      have hf := optionsOf_forall ho
      obtain ⟨_, _, _, _, h5⟩ := filterBy_result h
      rcases h5 with ⟨e, h5⟩ | ⟨h5, _⟩
      · rw [e, hr.2.2 _ hb]
        intro m hm q' hq' c hcq hen
        obtain ⟨q2, hq2, he⟩ := forall2_left hf ((hex m).mpr hm)
        rw [hq'] at he
        simp only [Option.some.injEq] at he
        subst he
        obtain ⟨x, hx, hle⟩ := h5 ⟨c, q', hq2, hcq, hen⟩ q' hq2
        obtain ⟨y, hy, hxy⟩ := hc m hm q' hq' c hcq hen x hx
        exact ⟨y, hy, le_trans hle hxy⟩
      · exact h5

/-- C50.  On an acyclic graph with complete options the filter ends, and it fails exactly when no option of
the node is read by all consumers. -/
theorem C50_defined (g : GGraph) (ha : Acyclic g) (hc : Complete g) (n : Nat) :
    ∃ F, ∀ fuel, F ≤ fuel → ∀ q : Qco Name, q.configs ≠ [] →
      (filterQco g fuel n q = none ↔ ∀ c ∈ q.configs, ∃ m, Consumer g n m ∧ ¬ Reads g m c.actBits) := by
  obtain ⟨rank, N, hN, hr⟩ := ha
  have hW : ∀ n, 1 + ((g.next n).map (cost g N)).sum ≤ cost g N n := by
    intro n
    have := cost_stable g rank N hN hr N n (Nat.sub_le _ _)
    rw [← this]
    exact le_refl _
  refine ⟨((g.next n).map (cost g N)).sum, ?_⟩
  intro fuel hfuel q hq
  obtain ⟨ms, hms⟩ := gather_ends g hc (cost g N) hW fuel (g.next n) [] hfuel
  have hex := gather_exact g n fuel ms hms
  have hos : ∃ qs, optionsOf g ms = some qs := by
    clear hms hex
    induction ms with
    | nil => exact ⟨[], rfl⟩
    | cons m ms ih =>
      obtain ⟨qs, h⟩ := ih
      obtain ⟨q, h1, _⟩ := hc m
      exact ⟨q :: qs, by simp [optionsOf, h1, h]⟩
  obtain ⟨qs, hqs⟩ := hos
  have hqr := fun bits => quantized_reads hex hqs bits
  have hf := optionsOf_forall hqs
  have hcomp : ∀ q ∈ qs, (∀ c ∈ q.configs, c.inBits ≠ []) ∧ q.base ∈ q.configs := by
    intro q hq
    obtain ⟨m, _, he⟩ := forall2_right hf hq
    obtain ⟨q', h1, _, h2, h3⟩ := hc m
    rw [h1] at he
    simp only [Option.some.injEq] at he
    subst he
    exact ⟨h3, h2⟩
  have hcases : filterQco g fuel n q = filterBy q qs := by
    unfold filterQco; rw [hms]; simp only [hqs]
  constructor
  · intro hn c hcq
    rw [hcases] at hn
    by_contra hcon
    push Not at hcon
    have hall := (hqr c.actBits).mpr hcon
    unfold filterBy at hn
    split at hn
    · simp at hn
    · obtain ⟨bits, hbits⟩ := maxIns_total (cs := (qs.flatMap (·.configs)).filter
          (fun c => c.enableAct || c.preserving)) (by
        intro d hd
        rw [quantized_mem] at hd
        obtain ⟨q', h1, h2, _⟩ := hd
        exact (hcomp q' h1).1 d h2)
      rw [hbits] at hn
      have hfb := maxIns_forall hbits
      cases bits with
      | nil => simp at hn
      | cons b0 bs =>
        simp only at hn
        have hin : c ∈ q.configs.filter (fun c => decide (c.actBits ≤ bs.foldl min b0)) := by
          rw [List.mem_filter, decide_eq_true_iff]
          refine ⟨hcq, ?_⟩
          obtain ⟨d, hd, hmax⟩ := forall2_right hfb (foldl_min_mem b0 bs)
          rw [quantized_mem] at hd
          obtain ⟨x, hx, hle⟩ := hall d hd
          exact le_trans hle ((maxIn_spec hmax).2 x hx)
        obtain ⟨ms', hms'⟩ := maxIns_total (cs := qs.map (·.base)) (by
          intro d hd
          rw [List.mem_map] at hd
          obtain ⟨q', h1, h2⟩ := hd
          subst h2
          exact (hcomp q' h1).1 _ (hcomp q' h1).2)
        rw [hms'] at hn
        cases hfil : q.configs.filter (fun c => decide (c.actBits ≤ bs.foldl min b0)) with
        | nil => rw [hfil] at hin; simp at hin
        | cons e es =>
          rw [hfil] at hn
          simp only at hn
          split at hn <;> simp at hn
  · intro hall
    cases hfil : filterQco g fuel n q with
    | none => rfl
    | some r =>
      obtain ⟨b, os⟩ := r
      obtain ⟨h1, h2, h3⟩ := C50_readable g fuel n q b os hfil
      cases os with
      | nil => exact absurd rfl (h2 hq)
      | cons c cs =>
        have hcq := h1.subset (List.mem_cons_self)
        obtain ⟨m, hm, hnr⟩ := hall c hcq
        exact absurd ((h3 c hcq).mp (by simp) m hm) hnr

end MCT.Cand
