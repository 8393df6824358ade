/-
Layer filters: what they match (C48) and how they are compared (C47).
-/
import Verif.Tpc.Model
import Mathlib.Data.List.Lex
import Mathlib.Data.List.Infix
import Mathlib.Order.Basic
import Mathlib.Data.Char
import Mathlib.Algebra.Order.Group.Int

namespace MCT.TpcSpec
open MCT.Py MCT.Tpc

/-- Strictly below: integers by value, strings and tuples lexicographically; nothing else is ordered. -/
def Below : Val → Val → Prop
  | .int a, .int b => a < b
  | .str a, .str b => List.Lex (· < ·) a b
  | .tup a, .tup b => List.Lex (· < ·) a b
  | _, _ => False

/-- What each operator says of the value `w` of the layer and the value `v` of the filter. -/
def Says : Op → Val → Val → Prop
  | .eq, w, v => w = v
  | .ne, w, v => w ≠ v
  | .lt, w, v => Below w v
  | .gt, w, v => Below v w
  | .le, w, v => Below w v ∨ w = v
  | .ge, w, v => Below v w ∨ w = v
  | .contains, w, v =>
      (∃ l i, w = .tup l ∧ v = .int i ∧ i ∈ l) ∨ (∃ s t, w = .str s ∧ v = .str t ∧ t <:+: s)

/-- Values that Python can order. -/
def Ordered (w v : Val) : Prop :=
  (∃ a b, w = .int a ∧ v = .int b) ∨ (∃ a b, w = .str a ∧ v = .str b) ∨ (∃ a b, w = .tup a ∧ v = .tup b)

/-- Python does not raise `TypeError`. -/
def Applicable : Op → Val → Val → Prop
  | .eq, _, _ => True
  | .ne, _, _ => True
  | .contains, w, v => (∃ l, w = .tup l) ∨ (∃ s t, w = .str s ∧ v = .str t)
  | _, w, v => Ordered w v

/-- The boolean formula of a filter over the attributes of a layer; a missing attribute satisfies no
comparison. -/
inductive Holds (cfg : Dict Name Val) : Cond → Prop
  | atom {a op v w} : cfg.get a = some w → Says op w v → Holds cfg (.atom a op v)
  | or {id l c} : c ∈ l → Holds cfg c → Holds cfg (.or id l)
  | and {id l} : (∀ c ∈ l, Holds cfg c) → Holds cfg (.and id l)

/-- Every comparison of the filter can be applied to the attributes of the layer. -/
inductive WellTyped (cfg : Dict Name Val) : Cond → Prop
  | atom {a op v} : (∀ w, cfg.get a = some w → Applicable op w v) → WellTyped cfg (.atom a op v)
  | or {id l} : (∀ c ∈ l, WellTyped cfg c) → WellTyped cfg (.or id l)
  | and {id l} : (∀ c ∈ l, WellTyped cfg c) → WellTyped cfg (.and id l)

variable {ν : Type}

/-- The node satisfies the filter: its type, the keyword arguments (a missing attribute reads as `None`)
and the conditions. -/
def Satisfies (n : Node ν) (f : Lfp ν) : Prop :=
  n.fits f.layer = true ∧ (∀ p ∈ f.kwargs, (n.config.get p.1).getD .none = p.2) ∧
  ∀ c ∈ f.conds, Holds n.config c

/-- The two filters say the same: same layer, equal conditions in order, same keyword arguments. -/
def SameFilter [DecidableEq ν] (a b : Lfp ν) : Prop :=
  a.layer = b.layer ∧ List.Forall₂ (fun x y => Cond.same x y = true) a.conds b.conds ∧
  (∀ k, a.kwargs.get k = b.kwargs.get k)

end MCT.TpcSpec

namespace MCT.Tpc
open MCT.Py MCT.TpcSpec

set_option linter.unusedSectionVars false
set_option linter.unusedVariables false

theorem lexLt_iff {α : Type} (r : α → α → Prop) [DecidableRel r]
    (tri : ∀ x y, r x y ∨ x = y ∨ r y x) (asym : ∀ x y, r x y → ¬ r y x) (a b : List α) :
    lexLt (fun x y : α => decide (r x y)) a b = true ↔ List.Lex r a b := by
  induction a generalizing b with
  | nil =>
    cases b with
    | nil => simp [lexLt]
    | cons y ys => simp [lexLt]
  | cons x xs ih =>
    cases b with
    | nil => simp [lexLt]
    | cons y ys =>
      unfold lexLt
      rw [List.cons_lex_cons_iff, ← ih]
      rcases tri x y with h | h | h
      · simp [h]
      · subst h
        have : ¬ r x x := fun hh => asym x x hh hh
        simp [this]
      · have h1 : ¬ r x y := asym y x h
        have h2 : ¬ x = y := fun hh => h1 (by rw [hh] at h ⊢; exact h)
        simp [h, h1, h2]

theorem lex_total {α : Type} (r : α → α → Prop)
    (tri : ∀ x y, r x y ∨ x = y ∨ r y x) (asym : ∀ x y, r x y → ¬ r y x) (a b : List α) :
    ¬ List.Lex r b a ↔ List.Lex r a b ∨ a = b := by
  induction a generalizing b with
  | nil =>
    cases b with
    | nil => simp
    | cons y ys => simp
  | cons x xs ih =>
    cases b with
    | nil => simp
    | cons y ys =>
      rw [List.cons_lex_cons_iff, List.cons_lex_cons_iff, List.cons.injEq]
      have := ih ys
      rcases tri x y with h | h | h
      · have h1 : ¬ r y x := asym x y h
        have h2 : ¬ y = x := fun hh => h1 (by rw [hh] at h ⊢; exact h)
        simp [h, h1, h2]
      · subst h
        have h1 : ¬ r x x := fun hh => asym x x hh hh
        simp [h1, this]
      · have h1 : ¬ r x y := asym y x h
        have h2 : ¬ x = y := fun hh => h1 (by rw [hh] at h ⊢; exact h)
        simp [h, h1, h2]

theorem char_tri (x y : Char) : x < y ∨ x = y ∨ y < x := lt_trichotomy x y
theorem char_asym (x y : Char) (h : x < y) : ¬ y < x := lt_asymm h
theorem int_tri (x y : Int) : x < y ∨ x = y ∨ y < x := lt_trichotomy x y
theorem int_asym (x y : Int) (h : x < y) : ¬ y < x := lt_asymm h

theorem lt?_result {w v : Val} {b : Bool} (h : w.lt? v = some b) : b = true ↔ Below w v := by
  cases w <;> cases v <;> simp only [Val.lt?, Option.some.injEq, reduceCtorEq] at h <;> subst h
  · simp [Below]
  · exact lexLt_iff _ char_tri char_asym _ _
  · exact lexLt_iff _ int_tri int_asym _ _

theorem lt?_total {w v : Val} {b : Bool} (h : v.lt? w = some b) :
    (!b) = true ↔ Below w v ∨ w = v := by
  have h1 := lt?_result h
  have h2 : (!b) = true ↔ ¬ Below v w := by rw [← h1]; cases b <;> simp
  rw [h2]
  cases w <;> cases v <;> simp only [Val.lt?, Option.some.injEq, reduceCtorEq] at h
  · simp only [Below, Val.int.injEq, not_lt]; exact le_iff_lt_or_eq
  · simp only [Below, Val.str.injEq]; exact lex_total _ char_tri char_asym _ _
  · simp only [Below, Val.tup.injEq]; exact lex_total _ int_tri int_asym _ _

theorem lt?_defined {w v : Val} (h : Ordered w v) : ∃ b, w.lt? v = some b := by
  rcases h with ⟨a, b, rfl, rfl⟩ | ⟨a, b, rfl, rfl⟩ | ⟨a, b, rfl, rfl⟩ <;> exact ⟨_, rfl⟩

theorem Ordered.symm {w v : Val} (h : Ordered w v) : Ordered v w := by
  rcases h with ⟨a, b, h1, h2⟩ | ⟨a, b, h1, h2⟩ | ⟨a, b, h1, h2⟩
  · exact Or.inl ⟨b, a, h2, h1⟩
  · exact Or.inr (Or.inl ⟨b, a, h2, h1⟩)
  · exact Or.inr (Or.inr ⟨b, a, h2, h1⟩)

theorem hasSub_iff (s t : Name) : hasSub s t = true ↔ t <:+: s := by
  unfold hasSub
  rw [List.any_eq_true]
  constructor
  · rintro ⟨u, hu, hp⟩
    rw [List.mem_tails] at hu
    exact (List.isPrefixOf_iff_prefix.mp hp).isInfix.trans hu.isInfix
  · intro h
    obtain ⟨u, hu, hp⟩ := List.infix_iff_prefix_suffix.mp h
    exact ⟨u, (List.mem_tails _ _).mpr hp, List.isPrefixOf_iff_prefix.mpr hu⟩

theorem contains?_result {w v : Val} {b : Bool} (h : w.contains? v = some b) :
    b = true ↔ Says .contains w v := by
  unfold Says
  cases w <;> cases v <;> simp only [Val.contains?, Option.some.injEq, reduceCtorEq] at h <;> subst h
  · rename_i s t
    rw [hasSub_iff]
    constructor
    · intro hh; exact Or.inr ⟨s, t, rfl, rfl, hh⟩
    · rintro (⟨l, i, h1, _⟩ | ⟨s', t', h1, h2, h3⟩)
      · simp at h1
      · simp only [Val.str.injEq] at h1 h2
        subst h1; subst h2; exact h3
  · simp
  · rename_i l i
    rw [decide_eq_true_iff]
    constructor
    · intro hh; exact Or.inl ⟨l, i, rfl, rfl, hh⟩
    · rintro (⟨l', i', h1, h2, h3⟩ | ⟨s, t, h1, _⟩)
      · simp only [Val.tup.injEq, Val.int.injEq] at h1 h2
        subst h1; subst h2; exact h3
      · simp at h1
  · simp
  · simp

theorem apply_result {op : Op} {w v : Val} {b : Bool} (h : op.apply w v = some b) :
    b = true ↔ Says op w v := by
  cases op <;> simp only [Op.apply, Option.some.injEq, Option.map_eq_some_iff] at h
  · exact lt?_result h
  · obtain ⟨c, h1, h2⟩ := h
    subst h2
    have := lt?_total h1
    unfold Says
    rw [this]
    constructor
    · rintro (h | h)
      · exact Or.inl h
      · exact Or.inr h.symm
    · rintro (h | h)
      · exact Or.inl h
      · exact Or.inr h.symm
  · exact lt?_result h
  · obtain ⟨c, h1, h2⟩ := h
    subst h2
    exact lt?_total h1
  · subst h; simp [Says]
  · subst h; simp [Says]
  · exact contains?_result h

theorem apply_defined {op : Op} {w v : Val} (h : Applicable op w v) : ∃ b, op.apply w v = some b := by
  cases op
  · exact lt?_defined (Ordered.symm h)
  · obtain ⟨b, hb⟩ := lt?_defined h
    exact ⟨!b, by simp [Op.apply, hb]⟩
  · exact lt?_defined h
  · obtain ⟨b, hb⟩ := lt?_defined (Ordered.symm h)
    exact ⟨!b, by simp [Op.apply, hb]⟩
  · exact ⟨_, rfl⟩
  · exact ⟨_, rfl⟩
  · rcases h with ⟨l, rfl⟩ | ⟨s, t, rfl, rfl⟩
    · cases v <;> exact ⟨_, rfl⟩
    · exact ⟨_, rfl⟩

mutual
theorem test_result (cfg : Dict Name Val) : (c : Cond) → (b : Bool) → Cond.test cfg c = some b →
    (b = true ↔ Holds cfg c)
  | .atom a op v, b, h => by
    unfold Cond.test at h
    cases hg : cfg.get a with
    | none =>
      rw [hg] at h
      simp only [Option.some.injEq] at h
      subst h
      constructor
      · intro hh; simp at hh
      · rintro ⟨h1, _⟩
        rw [hg] at h1; simp at h1
    | some w =>
      rw [hg] at h
      rw [apply_result h]
      constructor
      · intro hh; exact Holds.atom hg hh
      · rintro ⟨h1, h2⟩
        rw [hg] at h1
        simp only [Option.some.injEq] at h1
        subst h1; exact h2
  | .or id l, b, h => by
    unfold Cond.test at h
    rw [testOr_result cfg l b h]
    constructor
    · rintro ⟨c, h1, h2⟩; exact Holds.or h1 h2
    · intro hh
      cases hh with
      | or h1 h2 => exact ⟨_, h1, h2⟩
  | .and id l, b, h => by
    unfold Cond.test at h
    rw [testAnd_result cfg l b h]
    constructor
    · intro hh; exact Holds.and hh
    · intro hh
      cases hh with
      | and h1 => exact h1
theorem testOr_result (cfg : Dict Name Val) : (l : List Cond) → (b : Bool) →
    Cond.testOr cfg l = some b → (b = true ↔ ∃ c ∈ l, Holds cfg c)
  | [], b, h => by
    simp only [Cond.testOr, Option.some.injEq] at h
    subst h; simp
  | c :: cs, b, h => by
    unfold Cond.testOr at h
    cases ht : Cond.test cfg c with
    | none => rw [ht] at h; simp at h
    | some b' =>
      have h1 := test_result cfg c b' ht
      rw [ht] at h
      cases b' with
      | true =>
        simp only [Option.some.injEq] at h
        subst h
        have h2 := h1.mp rfl
        simp [h2]
      | false =>
        simp only at h
        have h2 : ¬ Holds cfg c := fun hh => by simpa using h1.mpr hh
        rw [testOr_result cfg cs b h]
        simp [h2]
theorem testAnd_result (cfg : Dict Name Val) : (l : List Cond) → (b : Bool) →
    Cond.testAnd cfg l = some b → (b = true ↔ ∀ c ∈ l, Holds cfg c)
  | [], b, h => by
    simp only [Cond.testAnd, Option.some.injEq] at h
    subst h; simp
  | c :: cs, b, h => by
    unfold Cond.testAnd at h
    cases ht : Cond.test cfg c with
    | none => rw [ht] at h; simp at h
    | some b' =>
      have h1 := test_result cfg c b' ht
      rw [ht] at h
      cases b' with
      | true =>
        simp only at h
        have h2 := h1.mp rfl
        rw [testAnd_result cfg cs b h]
        simp [h2]
      | false =>
        simp only [Option.some.injEq] at h
        subst h
        have h2 : ¬ Holds cfg c := fun hh => by simpa using h1.mpr hh
        simp [h2]
end

mutual
theorem test_defined (cfg : Dict Name Val) : (c : Cond) → WellTyped cfg c →
    ∃ b, Cond.test cfg c = some b
  | .atom a op v, h => by
    unfold Cond.test
    cases hg : cfg.get a with
    | none => exact ⟨false, rfl⟩
    | some w =>
      cases h with
      | atom hh => exact apply_defined (hh w hg)
  | .or id l, h => by
    unfold Cond.test
    cases h with
    | or hh => exact testOr_defined cfg l hh
  | .and id l, h => by
    unfold Cond.test
    cases h with
    | and hh => exact testAnd_defined cfg l hh
theorem testOr_defined (cfg : Dict Name Val) : (l : List Cond) → (∀ c ∈ l, WellTyped cfg c) →
    ∃ b, Cond.testOr cfg l = some b
  | [], _ => ⟨false, by simp [Cond.testOr]⟩
  | c :: cs, h => by
    unfold Cond.testOr
    obtain ⟨b, hb⟩ := test_defined cfg c (h c (by simp))
    rw [hb]
    cases b
    · exact testOr_defined cfg cs (fun d hd => h d (List.mem_cons_of_mem _ hd))
    · exact ⟨true, rfl⟩
theorem testAnd_defined (cfg : Dict Name Val) : (l : List Cond) → (∀ c ∈ l, WellTyped cfg c) →
    ∃ b, Cond.testAnd cfg l = some b
  | [], _ => ⟨true, by simp [Cond.testAnd]⟩
  | c :: cs, h => by
    unfold Cond.testAnd
    obtain ⟨b, hb⟩ := test_defined cfg c (h c (by simp))
    rw [hb]
    cases b
    · exact ⟨false, rfl⟩
    · exact testAnd_defined cfg cs (fun d hd => h d (List.mem_cons_of_mem _ hd))
end

/-- C48.  Whatever a filter answers is the truth of its boolean formula over the layer's attributes, a
missing attribute satisfying no comparison. -/
theorem C48_match_exact (cfg : Dict Name Val) (c : Cond) (b : Bool) (h : Cond.test cfg c = some b) :
    b = true ↔ Holds cfg c := test_result cfg c b h

/-- C48.  A filter answers, without a `TypeError`, whenever its comparisons apply to the values. -/
theorem C48_match_defined (cfg : Dict Name Val) (c : Cond) (h : WellTyped cfg c) :
    ∃ b, Cond.test cfg c = some b := test_defined cfg c h

/-- C48.  The disjunction and the conjunction of two attribute filters mean what they say. -/
theorem C48_or_and (cfg : Dict Name Val) (id : Nat) (x y z : Cond) :
    (Cond.mkOr id x y = some z → (Holds cfg z ↔ Holds cfg x ∨ Holds cfg y)) ∧
    (Cond.mkAnd id x y = some z → (Holds cfg z ↔ Holds cfg x ∧ Holds cfg y)) := by
  constructor
  · intro h
    cases x <;> cases y <;> simp only [Cond.mkOr, Option.some.injEq, reduceCtorEq] at h
    subst h
    constructor
    · intro hh
      cases hh with
      | or h1 h2 =>
        simp only [List.mem_cons, List.not_mem_nil, or_false] at h1
        rcases h1 with h1 | h1
        · subst h1; exact Or.inl h2
        · subst h1; exact Or.inr h2
    · rintro (h | h)
      · exact Holds.or (by simp) h
      · exact Holds.or (List.mem_cons_of_mem _ (by simp)) h
  · intro h
    cases x <;> cases y <;> simp only [Cond.mkAnd, Option.some.injEq, reduceCtorEq] at h
    subst h
    constructor
    · intro hh
      cases hh with
      | and h1 => exact ⟨h1 _ (by simp), h1 _ (by simp)⟩
    · rintro ⟨h1, h2⟩
      refine Holds.and ?_
      intro c hc
      simp only [List.mem_cons, List.not_mem_nil, or_false] at hc
      rcases hc with hc | hc
      · subst hc; exact h1
      · subst hc; exact h2

/-- C48 (limitation).  `|` and `&` accept two attribute filters only, so that three filters cannot be
combined with them: the second application fails, whatever the filters. -/
theorem C48_chain_violated (id id' : Nat) (x y z w : Cond)
    (h : Cond.mkOr id x y = some w ∨ Cond.mkAnd id x y = some w) :
    Cond.mkOr id' w z = none ∧ Cond.mkAnd id' w z = none ∧ Cond.mkOr id' z w = none ∧
      Cond.mkAnd id' z w = none := by
  rcases h with h | h <;> cases x <;> cases y <;>
    simp only [Cond.mkOr, Cond.mkAnd, Option.some.injEq, reduceCtorEq] at h <;> subst h <;>
    cases z <;> simp [Cond.mkOr, Cond.mkAnd]

variable {ν : Type} [DecidableEq ν]

/-- C48.  A node matches a filter exactly when it has the type, its attributes equal the keyword arguments
(a missing attribute reads as `None`), and all the conditions hold. -/
theorem C48_filter_params (n : Node ν) (f : Lfp ν) (b : Bool) (h : n.matchFilter f = some b) :
    b = true ↔ Satisfies n f := by
  unfold Node.matchFilter at h
  unfold Satisfies
  cases h1 : n.fits f.layer with
  | false =>
    rw [h1] at h
    simp only [Bool.not_false, if_true, Option.some.injEq] at h
    subst h; simp
  | true =>
    rw [h1] at h
    simp only [Bool.not_true, Bool.false_eq_true, if_false] at h
    cases h2 : f.kwargs.all (fun p => decide ((n.config.get p.1).getD .none = p.2)) with
    | false =>
      rw [h2] at h
      simp only [Bool.not_false, if_true, Option.some.injEq] at h
      subst h
      have : ¬ ∀ p ∈ f.kwargs, (n.config.get p.1).getD .none = p.2 := by
        intro hh
        rw [List.all_eq_false] at h2
        obtain ⟨p, hp, hp2⟩ := h2
        exact hp2 (by simpa using hh p hp)
      exact ⟨fun hh => by simp at hh, fun hh => absurd hh.2.1 this⟩
    | true =>
      rw [h2] at h
      simp only [Bool.not_true, Bool.false_eq_true, if_false] at h
      have h3 : ∀ p ∈ f.kwargs, (n.config.get p.1).getD .none = p.2 := by
        intro p hp
        simpa using List.all_eq_true.mp h2 p hp
      rw [testAnd_result _ _ _ h]
      exact ⟨fun hh => ⟨rfl, h3, hh⟩, fun hh => hh.2.2⟩

/-- C48.  The attributes a filter sees are those of the layer, overridden by the keyword arguments of its
call. -/
theorem C48_config (n : Node ν) (kw : Dict Name Val) (hk : n.callKwargs = some kw) (hn : kw.keys.Nodup)
    (k : Name) : n.config.get k = (kw.get k).orElse (fun _ => n.attrs.get k) := by
  unfold Node.config
  rw [hk]
  simp only
  rw [Dict.get_foldl_set]
  congr 1
  cases hg : kw.get k with
  | none =>
    rw [Dict.get_none_iff, Dict.keys_reverse_mem]
    exact (Dict.get_none_iff _ _).mp hg
  | some v =>
    apply Dict.get_of_mem
    · simp only [Dict.keys, List.map_reverse, List.nodup_reverse]; exact hn
    · rw [List.mem_reverse]; exact Dict.get_some_mem hg

/-! #### Concrete filters -/

def sAtom : Cond := .atom ['s'] .gt (.int 1)
def dAtom : Cond := .atom ['d'] .eq (.str ['x'])
def sampleConfig : Dict Name Val := [(['s'], .int 2), (['p'], .tup [1, 2])]

example : WellTyped sampleConfig (.or 0 [sAtom, dAtom]) := by
  refine WellTyped.or ?_
  intro c hc
  simp only [List.mem_cons, List.not_mem_nil, or_false] at hc
  rcases hc with hc | hc <;> subst hc <;> refine WellTyped.atom ?_
  · intro w hw
    have : w = .int 2 := by
      have h2 : sampleConfig.get ['s'] = some (.int 2) := by decide +kernel
      rw [h2] at hw
      exact (Option.some.inj hw).symm
    subst this
    exact Or.inl ⟨2, 1, rfl, rfl⟩
  · intro w _; trivial
example : Cond.test sampleConfig (.or 0 [sAtom, dAtom]) = some true := by decide +kernel
example : Cond.test sampleConfig (.and 0 [sAtom, dAtom]) = some false := by decide +kernel
example : Cond.test sampleConfig (.atom ['p'] .gt (.int 1)) = none := by decide +kernel
example : ∃ w, Cond.mkOr 0 sAtom dAtom = some w := ⟨_, rfl⟩

/-! ### Comparing filters -/

/-- C47 (partial).  For filters of the same layer with as many conditions and the same keyword names, `==`
holds exactly when they say the same.  Without these provisos it does not (`C47_symmetric_violated`,
`C47_layer_violated`, `C47_conditions_violated`). -/
theorem C47_equality_partial (a b : Lfp ν) (hl : a.layer = b.layer)
    (hc : a.conds.length = b.conds.length) (ha : a.kwargs.keys.Nodup) (hb : b.kwargs.keys.Nodup)
    (hk : ∀ k, k ∈ a.kwargs.keys ↔ k ∈ b.kwargs.keys) :
    a.same b = true ↔ SameFilter a b := by
  unfold Lfp.same SameFilter
  rw [Bool.and_eq_true, List.all_eq_true, List.all_eq_true]
  have h1 : (∀ x ∈ a.conds.zip b.conds, x.1.same x.2 = true) ↔
      List.Forall₂ (fun x y => Cond.same x y = true) a.conds b.conds := by
    rw [List.forall₂_iff_zip]
    constructor
    · intro h; exact ⟨hc, fun {x y} hxy => h (x, y) hxy⟩
    · rintro ⟨_, h⟩ ⟨x, y⟩ hxy; exact h hxy
  have h2 : (∀ x ∈ a.kwargs, decide (b.kwargs.get x.1 = some x.2) = true) ↔
      ∀ k, a.kwargs.get k = b.kwargs.get k := by
    constructor
    · intro h k
      cases hg : a.kwargs.get k with
      | some v =>
        have := h (k, v) (Dict.get_some_mem hg)
        simp only [decide_eq_true_eq] at this
        exact this.symm
      | none =>
        symm
        rw [Dict.get_none_iff] at hg ⊢
        rwa [← hk]
    · rintro h ⟨k, v⟩ hx
      have := Dict.get_of_mem ha hx
      rw [h] at this
      simpa using this
  rw [h1, h2]
  exact ⟨fun h => ⟨hl, h.1, h.2⟩, fun h => ⟨h.2.1, h.2.2⟩⟩

theorem cond_same_symm (x y : Cond) : x.same y = y.same x := by
  cases x <;> cases y <;> simp only [Cond.same] <;>
    simp only [eq_comm]

/-- C47 (partial).  Among such filters equality is symmetric. -/
theorem C47_symmetric_partial (a b : Lfp ν) (hl : a.layer = b.layer)
    (hc : a.conds.length = b.conds.length) (ha : a.kwargs.keys.Nodup) (hb : b.kwargs.keys.Nodup)
    (hk : ∀ k, k ∈ a.kwargs.keys ↔ k ∈ b.kwargs.keys) : a.same b = b.same a := by
  rw [Bool.eq_iff_iff, C47_equality_partial a b hl hc ha hb hk,
    C47_equality_partial b a hl.symm hc.symm hb ha (fun k => (hk k).symm)]
  unfold SameFilter
  constructor
  · rintro ⟨h1, h2, h3⟩
    refine ⟨h1.symm, ?_, fun k => (h3 k).symm⟩
    refine List.Forall₂.flip (h2.imp ?_)
    intro x y hxy
    show y.same x = true
    rw [cond_same_symm]; exact hxy
  · rintro ⟨h1, h2, h3⟩
    refine ⟨h1.symm, ?_, fun k => (h3 k).symm⟩
    refine List.Forall₂.flip (h2.imp ?_)
    intro x y hxy
    show y.same x = true
    rw [cond_same_symm]; exact hxy

/-- C47 is false: equality of filters is not symmetric — a filter without keyword arguments equals every
filter with them, but not the other way round. -/
theorem C47_symmetric_violated : ∃ a b : Lfp Nat, a.same b = true ∧ b.same a = false :=
  ⟨⟨0, [], []⟩, ⟨0, [], [(['k'], .int 1)]⟩, by decide +kernel, by decide +kernel⟩

/-- C47 is false: filters of different layers compare equal. -/
theorem C47_layer_violated : ∃ a b : Lfp Nat, a.layer ≠ b.layer ∧ a.same b = true :=
  ⟨⟨0, [], []⟩, ⟨1, [], []⟩, by decide, by decide +kernel⟩

/-- C47 is false: a filter with one condition equals one with a further condition; a layer can match the
first and not the second. -/
theorem C47_conditions_violated : ∃ (a b : Lfp Nat) (n : Node Nat), a.same b = true ∧ b.same a = true ∧
    n.matchFilter a = some true ∧ n.matchFilter b = some false :=
  ⟨⟨0, [sAtom], []⟩, ⟨0, [sAtom, dAtom], []⟩, ⟨fun l => decide (l = 0), sampleConfig, none⟩,
    by decide +kernel, by decide +kernel, by decide +kernel, by decide +kernel⟩

/-- C47 is false even as keys of a dictionary: two layers with the same printed name collide. -/
theorem C47_key_collision_violated : ∃ (s : Show Nat) (a b : Lfp Nat), a.layer ≠ b.layer ∧
    a.sameKey s b = true :=
  ⟨⟨fun _ => ['r'], fun _ => [], fun _ => []⟩, ⟨0, [], []⟩, ⟨1, [], []⟩, by decide, by decide +kernel⟩

/-- `', '.join` puts the separator between the items. -/
theorem commaJoin_eq (l : List Name) : commaJoin l = List.intercalate [',', ' '] l := by
  induction l with
  | nil => rfl
  | cons x xs ih =>
    cases xs with
    | nil => simp [commaJoin, List.intercalate, List.intersperse]
    | cons y ys =>
      rw [commaJoin, ih]
      simp [List.intercalate, List.intersperse]
      intro h; cases h

/-- C47.  What is displayed for a filter: the name of the layer and, in brackets and separated by commas,
the keyword arguments in the order given and then the conditions in the order given. -/
theorem C47_display (s : Show ν) (f : Lfp ν) :
    f.printed s = s.layer f.layer ++ ('(' ::
      (List.intercalate [',', ' '] ((f.kwargs.map (fun p => p.1 ++ '=' :: s.val p.2)) ++
        f.conds.map s.cond) ++ [')'])) := by
  unfold Lfp.printed
  rw [commaJoin_eq]
  simp

/-- C47 is false as keys of a dictionary: filters that say the same and compare equal are different keys
when their keyword arguments were written in another order. -/
theorem C47_key_order_violated (s : Show Nat) (l : Nat) :
    ∃ a b : Lfp Nat, a.layer = l ∧ SameFilter a b ∧ a.same b = true ∧ b.same a = true ∧
      a.sameKey s b = false := by
  refine ⟨⟨l, [], [(['k'], .int 1), (['m'], .int 1)]⟩, ⟨l, [], [(['m'], .int 1), (['k'], .int 1)]⟩,
    rfl, ?_, ?_, ?_, ?_⟩
  · refine ⟨rfl, List.Forall₂.nil, ?_⟩
    intro k
    simp only [Dict.get, List.find?]
    by_cases h1 : (['k'] : Name) = k <;> by_cases h2 : (['m'] : Name) = k <;> simp_all
  · rfl
  · rfl
  · unfold Lfp.sameKey
    rw [Bool.and_eq_false_iff]
    left
    rw [decide_eq_false_iff_not]
    intro h
    simp [Lfp.printed, commaJoin] at h

example : ∃ a b : Lfp Nat, a.layer = b.layer ∧ a.conds.length = b.conds.length ∧
    a.kwargs.keys.Nodup ∧ b.kwargs.keys.Nodup ∧ (∀ k, k ∈ a.kwargs.keys ↔ k ∈ b.kwargs.keys) ∧
    a.same b = true :=
  ⟨⟨0, [sAtom], [(['k'], .int 1), (['l'], .none)]⟩, ⟨0, [sAtom], [(['l'], .none), (['k'], .int 1)]⟩,
    rfl, rfl, by decide +kernel, by decide +kernel, by
      intro k
      simp only [Dict.keys, List.map_cons, List.map_nil, List.mem_cons, List.not_mem_nil, or_false]
      tauto, by decide +kernel⟩

end MCT.Tpc
