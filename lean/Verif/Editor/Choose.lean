/-
C114: which configurations become final in mixed precision
(/repo/model_compression_toolkit/core/common/mixed_precision/bit_width_setter.py 37-133).
-/
import Verif.Editor.Violations

namespace MCT.Editor
open MCT.Py MCT.Tpc MCT.Cand

variable {B : Type}

/-- The candidates of the layer, at least one, all have the mode. -/
def HasMode (cs : List Cand) (m : Val) : Prop := cs ≠ [] ∧ ∀ c ∈ cs, c.act.get .quantMode = some m

/-- Whether quantization of the weight is enabled by a candidate. -/
def Enables (c : Cand) (a : Attr) (b : Bool) : Prop :=
  ∃ k o v, c.wts.resolve a = some k ∧ c.wts.attr k = some o ∧ o.get .enableW = some v ∧ v.truthy = b

/-- Every candidate says whether the weight is quantized. -/
def Known (cs : List Cand) (a : Attr) : Prop := ∀ c ∈ cs, ∃ b, Enables c a b

/-- All candidates quantize the weight. -/
def Quantized (cs : List Cand) (a : Attr) : Prop := ∀ c ∈ cs, Enables c a true

theorem singleMode_iff (cs : List Cand) (m : Val) : singleMode cs = some m ↔ HasMode cs m := by
  cases cs with
  | nil => simp [singleMode, HasMode]
  | cons c cs =>
    simp only [singleMode, List.map_cons, HasMode, ne_eq, reduceCtorEq, not_false_eq_true, true_and, List.mem_cons,
      forall_eq_or_imp]
    split
    · rename_i h
      rw [List.all_eq_true] at h
      constructor
      · intro e
        refine ⟨e, fun d hd => ?_⟩
        have := h _ (List.mem_map_of_mem hd)
        rw [decide_eq_true_eq] at this
        rw [this, e]
      · exact fun e => e.1
    · rename_i h
      constructor
      · intro e; cases e
      · rintro ⟨e1, e2⟩
        refine absurd ?_ h
        rw [List.all_eq_true]
        intro u hu
        obtain ⟨d, hd, rfl⟩ := List.mem_map.mp hu
        rw [decide_eq_true_eq, e2 d hd, e1]

theorem enables_unique {c : Cand} {a : Attr} {b b' : Bool} (h : Enables c a b) (h' : Enables c a b') : b = b' := by
  obtain ⟨k, o, v, h1, h2, h3, h4⟩ := h
  obtain ⟨k', o', v', h1', h2', h3', h4'⟩ := h'
  rw [h1] at h1'; cases h1'
  rw [h2] at h2'; cases h2'
  rw [h3] at h3'; cases h3'
  rw [← h4, ← h4']

theorem enabledW_iff (a : Attr) : ∀ (cs : List Cand) (b : Bool),
    enabledW a cs = some b ↔ Known cs a ∧ (b = true ↔ Quantized cs a)
  | [], b => by
    simp only [enabledW, Known, Quantized, List.not_mem_nil, IsEmpty.forall_iff, implies_true, true_and, iff_true]
    cases b <;> simp
  | c :: cs, b => by
    have ih := enabledW_iff a cs
    rw [enabledW, Option.bind_eq_some_iff]
    have hv : ∀ v, ((c.wts.resolve a).bind fun k => (c.wts.attr k).bind fun o => o.get .enableW) = some v →
        Enables c a v.truthy := by
      intro v h
      obtain ⟨k, h1, h⟩ := Option.bind_eq_some_iff.mp h
      obtain ⟨o, h2, h3⟩ := Option.bind_eq_some_iff.mp h
      exact ⟨k, o, v, h1, h2, h3, rfl⟩
    constructor
    · rintro ⟨v, h1, h2⟩
      obtain ⟨b', h3, rfl⟩ := Option.map_eq_some_iff.mp h2
      obtain ⟨k1, k2⟩ := (ih b').mp h3
      have hc := hv v h1
      refine ⟨?_, ?_⟩
      · intro d hd
        rcases List.mem_cons.mp hd with rfl | hd
        · exact ⟨_, hc⟩
        · exact k1 d hd
      · rw [Bool.and_eq_true, k2]
        constructor
        · rintro ⟨e1, e2⟩ d hd
          rcases List.mem_cons.mp hd with rfl | hd
          · rw [e1] at hc; exact hc
          · exact e2 d hd
        · intro h
          exact ⟨enables_unique hc (h c List.mem_cons_self), fun d hd => h d (List.mem_cons_of_mem _ hd)⟩
    · rintro ⟨k1, k2⟩
      obtain ⟨b0, k, o, v, e1, e2, e3, e4⟩ := k1 c List.mem_cons_self
      refine ⟨v, by rw [e1]; simp only [Option.bind_some]; rw [e2]; exact e3, ?_⟩
      have hkn : Known cs a := fun d hd => k1 d (List.mem_cons_of_mem _ hd)
      classical
      have h3 := (ih (decide (Quantized cs a))).mpr ⟨hkn, by rw [decide_eq_true_eq]⟩
      rw [h3, Option.map_some, Option.some.injEq, Bool.eq_iff_iff, Bool.and_eq_true, decide_eq_true_eq, k2]
      constructor
      · rintro ⟨h1, h2⟩ d hd
        rcases List.mem_cons.mp hd with rfl | hd
        · exact ⟨k, o, v, e1, e2, e3, h1⟩
        · exact h2 d hd
      · intro h
        exact ⟨enables_unique (c := c) (a := a) ⟨k, o, v, e1, e2, e3, rfl⟩ (h c List.mem_cons_self),
          fun d hd => h d (List.mem_cons_of_mem _ hd)⟩

theorem anyEnabledW_iff (cs : List Cand) : ∀ (attrs : List Attr) (b : Bool),
    anyEnabledW cs attrs = some b ↔ (∀ a ∈ attrs, Known cs a) ∧ (b = true ↔ ∃ a ∈ attrs, Quantized cs a)
  | [], b => by cases b <;> simp [anyEnabledW]
  | a :: attrs, b => by
    have ih := anyEnabledW_iff cs attrs
    rw [anyEnabledW, Option.bind_eq_some_iff]
    constructor
    · rintro ⟨b1, h1, h2⟩
      obtain ⟨b2, h3, rfl⟩ := Option.map_eq_some_iff.mp h2
      obtain ⟨k1, k2⟩ := (enabledW_iff a cs b1).mp h1
      obtain ⟨k3, k4⟩ := (ih b2).mp h3
      refine ⟨?_, ?_⟩
      · intro a' ha
        rcases List.mem_cons.mp ha with rfl | ha
        · exact k1
        · exact k3 a' ha
      · rw [Bool.or_eq_true, k2, k4]
        simp
    · rintro ⟨k1, k2⟩
      classical
      refine ⟨decide (Quantized cs a), (enabledW_iff a cs _).mpr ⟨k1 a List.mem_cons_self, by rw [decide_eq_true_eq]⟩, ?_⟩
      have h3 := (ih (decide (∃ a ∈ attrs, Quantized cs a))).mpr
        ⟨fun a' ha => k1 a' (List.mem_cons_of_mem _ ha), by rw [decide_eq_true_eq]⟩
      rw [h3, Option.map_some, Option.some.injEq, Bool.eq_iff_iff, Bool.or_eq_true, decide_eq_true_eq,
        decide_eq_true_eq, k2]
      simp

/-- **C114, mixed precision, layers outside the search.**  The final activation configuration is set exactly when
all candidates quantize the activation, and the final weights configuration exactly when all candidates quantize some
weight; they are then copies of those of the first candidate, and nothing else of the layer changes. -/
theorem C114_fixed (attrs : List Attr) (n n' : Node B) (h : (Choice.fixed attrs).apply n = some n') :
    ∃ m c cs, n.cands = c :: cs ∧ HasMode n.cands m ∧ (∀ a ∈ attrs, Known n.cands a) ∧
      n' = { n with finalA := n'.finalA, finalW := n'.finalW } ∧
      (m = .mode .quant → n'.finalA = .own c.act) ∧ (m ≠ .mode .quant → n'.finalA = n.finalA) ∧
      ((∃ a ∈ attrs, Quantized n.cands a) → n'.finalW = .own c.wts) ∧
      ((¬ ∃ a ∈ attrs, Quantized n.cands a) → n'.finalW = n.finalW) := by
  rw [Choice.apply, setFixed] at h
  obtain ⟨m, h1, h⟩ := Option.bind_eq_some_iff.mp h
  obtain ⟨e, h2, h⟩ := Option.bind_eq_some_iff.mp h
  have hm := (singleMode_iff n.cands m).mp h1
  obtain ⟨k1, k2⟩ := (anyEnabledW_iff n.cands attrs e).mp h2
  obtain ⟨c, cs, hc⟩ := List.exists_cons_of_ne_nil hm.1
  refine ⟨m, c, cs, hc, hm, k1, ?_⟩
  rw [← k2]
  split at h
  · have h' : some ({ n with finalA := if m = .mode .quant then .own c.act else n.finalA
                             finalW := if e then .own c.wts else n.finalW } : Node B) = some n' := by
      rw [← h]
      simp only [hc]
    rw [Option.some.injEq] at h'
    subst h'
    refine ⟨rfl, fun hm => if_pos hm, fun hm => if_neg hm, fun he => if_pos he, fun he => if_neg he⟩
  · rename_i hcond
    rw [Option.some.injEq] at h
    subst h
    push Not at hcond
    exact ⟨rfl, fun hm => absurd hm hcond.1, fun _ => rfl, fun he => absurd he hcond.2, fun _ => rfl⟩

/-- **C114, mixed precision, layers of the search.**  The choice fails exactly when the candidates differ in their mode,
when the index is not that of a candidate, or when neither the activation nor the kernel is quantized; otherwise the
final configurations are the objects of the chosen candidate and nothing else of the layer changes. -/
theorem C114_chosen (i : Nat) (n n' : Node B) :
    (Choice.chosen i).apply n = some n' ↔
      (∃ m, HasMode n.cands m ∧ (m = .mode .quant ∨ m ≠ .mode .quant ∧ ∃ k, n.kernel = some k ∧
        Quantized n.cands (.named k))) ∧ i < n.cands.length ∧ n' = { n with finalA := .cand i, finalW := .cand i } := by
  rw [Choice.apply, setChosen, Option.bind_eq_some_iff]
  constructor
  · rintro ⟨m, h1, h⟩
    obtain ⟨ok, h2, h⟩ := Option.bind_eq_some_iff.mp h
    split at h
    · rename_i hok
      rw [Bool.and_eq_true, decide_eq_true_eq] at hok
      rw [Option.some.injEq] at h
      refine ⟨⟨m, (singleMode_iff _ _).mp h1, ?_⟩, hok.2, h.symm⟩
      by_cases hm : m = .mode .quant
      · exact Or.inl hm
      · rw [if_neg hm] at h2
        cases hk : n.kernel with
        | none => simp only [hk, Option.some.injEq] at h2; rw [← h2] at hok; cases hok.1
        | some k =>
          simp only [hk] at h2
          exact Or.inr ⟨hm, k, rfl, ((enabledW_iff _ _ _).mp h2).2.mp hok.1⟩
    · cases h
  · rintro ⟨⟨m, h1, h2⟩, hi, rfl⟩
    refine ⟨m, (singleMode_iff _ _).mpr h1, Option.bind_eq_some_iff.mpr ⟨true, ?_, ?_⟩⟩
    · rcases h2 with rfl | ⟨hm, k, hk, hq⟩
      · exact if_pos rfl
      · rw [if_neg hm]
        simp only [hk]
        exact (enabledW_iff _ _ _).mpr ⟨fun c hc => ⟨true, hq c hc⟩, by simpa using hq⟩
    · rw [if_pos (by simpa using hi)]

/-- The layers of the examples: the search may choose the second candidate of the convolution, and outside the search
the ReLU and the convolution get copies of their first candidates. -/
example : HasMode (exConv [⟨exAct 8, exWts 8⟩, ⟨exAct 8, exWts 4⟩]).cands (.mode .quant) ∧
    (Choice.chosen 1).apply (exConv [⟨exAct 8, exWts 8⟩, ⟨exAct 8, exWts 4⟩]) =
      some { exConv [⟨exAct 8, exWts 8⟩, ⟨exAct 8, exWts 4⟩] with finalA := .cand 1, finalW := .cand 1 } := by
  have hm : HasMode (exConv [⟨exAct 8, exWts 8⟩, ⟨exAct 8, exWts 4⟩]).cands (.mode .quant) := by
    refine ⟨by simp [exConv], fun c hc => ?_⟩
    simp only [exConv, List.mem_cons, List.not_mem_nil, or_false] at hc
    rcases hc with rfl | rfl <;> rfl
  exact ⟨hm, (C114_chosen _ _ _).mpr ⟨⟨_, hm, Or.inl rfl⟩, by decide, rfl⟩⟩

example : ((Choice.fixed [.named ['k', 'e', 'r', 'n', 'e', 'l']]).apply (exConv [⟨exAct 8, exWts 8⟩])).map
    (fun n => (n.finalA, n.finalW)) = some (.own (exAct 8), .own (exWts 8)) := by decide

end MCT.Editor
