/-
The manual choice of bit-widths (C51): which selection counts, and what it does to the candidates.
-/
import Verif.Candidates.Fused

namespace MCT.CandSpec
open MCT.Py MCT.Tpc MCT.Cand

/-- `s` is the last of the selections that satisfies `m`. -/
def LastWith {σ : Type} (m : σ → Prop) (sels : List σ) (s : σ) : Prop :=
  ∃ pre post, sels = pre ++ s :: post ∧ m s ∧ ∀ t ∈ post, ¬ m t

/-- The weight attribute is quantized with the given number of bits; `pos_attr` stands for all positional
attributes. -/
def HasBits (c : Cnd) (a : Name) (b : Nat) : Prop :=
  if a = posAttr then
    c.weights.positional ≠ [] ∧ ∀ p ∈ c.weights.positional, p.2.enabled = true ∧ p.2.nBits = b
  else ∃ w, (a, w) ∈ c.weights.named ∧ w.enabled = true ∧ w.nBits = b

end MCT.CandSpec

namespace MCT.Cand
open MCT.Py MCT.Tpc MCT.CandSpec

set_option linter.unusedSectionVars false
set_option linter.unusedVariables false

/-- `_set_manual_activation_bitwidths`, set_node_quantization_config.py 124-152. -/
def applyActs : Dict Nat Nat → Dict Nat NodeCfg → Option (Dict Nat NodeCfg)
  | [], cfgs => some cfgs
  | (n, b) :: rest, cfgs =>
    match cfgs.get n with
    | none => none
    | some c =>
      match manualAct c b with
      | none => none
      | some c' => applyActs rest (cfgs.set n c')

/-- `_set_manual_weights_bitwidths`, set_node_quantization_config.py 155-203. -/
def applyWs : Dict Nat (Dict Name Nat) → Dict Nat NodeCfg → Option (Dict Nat NodeCfg)
  | [], cfgs => some cfgs
  | (n, b) :: rest, cfgs =>
    match cfgs.get n with
    | none => none
    | some c =>
      match manualWeights c b with
      | none => none
      | some c' => applyWs rest (cfgs.set n c')

/-- `set_manual_bitwidth_config`, set_node_quantization_config.py 105-121.  A failure is `none`; the changes
made before it are not followed. -/
def setManual (attrsOf : Nat → List Attr) (nodes : List Nat) (acts : List ActSel) (ws : List WSel)
    (cfgs : Dict Nat NodeCfg) : Option (Dict Nat NodeCfg) :=
  match actMapping nodes acts [] with
  | none => none
  | some am =>
    match wMapping attrsOf nodes ws [] with
    | none => none
    | some wm =>
      match applyActs am cfgs with
      | none => none
      | some cfgs => applyWs wm cfgs

/-! ### Which selection counts -/

theorem lastWith_cons {σ : Type} (m : σ → Prop) (x : σ) (l : List σ) (s : σ) :
    LastWith m (x :: l) s ↔ LastWith m l s ∨ (x = s ∧ m x ∧ ∀ t ∈ l, ¬ m t) := by
  constructor
  · rintro ⟨pre, post, h1, h2, h3⟩
    cases pre with
    | nil =>
      simp only [List.nil_append, List.cons.injEq] at h1
      obtain ⟨rfl, rfl⟩ := h1
      exact Or.inr ⟨rfl, h2, h3⟩
    | cons y pre =>
      simp only [List.cons_append, List.cons.injEq] at h1
      obtain ⟨rfl, rfl⟩ := h1
      exact Or.inl ⟨pre, post, rfl, h2, h3⟩
  · rintro (⟨pre, post, rfl, h2, h3⟩ | ⟨rfl, h2, h3⟩)
    · exact ⟨x :: pre, post, rfl, h2, h3⟩
    · exact ⟨[], l, rfl, h2, h3⟩

theorem lastWith_exists {σ : Type} (m : σ → Prop) (l : List σ) :
    (∃ s, LastWith m l s) ↔ ∃ s ∈ l, m s := by
  classical
  induction l with
  | nil => constructor
           · rintro ⟨s, pre, post, h, _⟩; simp at h
           · rintro ⟨s, h, _⟩; simp at h
  | cons x l ih =>
    constructor
    · rintro ⟨s, pre, post, h1, h2, _⟩
      exact ⟨s, by rw [h1]; simp, h2⟩
    · intro h
      by_cases hl : ∃ s ∈ l, m s
      · obtain ⟨s, hs⟩ := ih.mpr hl
        exact ⟨s, (lastWith_cons m x l s).mpr (Or.inl hs)⟩
      · obtain ⟨s, hs, hms⟩ := h
        rcases List.mem_cons.mp hs with e | hs
        · subst e
          exact ⟨s, (lastWith_cons m s l s).mpr (Or.inr ⟨rfl, hms, fun t ht hm => hl ⟨t, ht, hm⟩⟩)⟩
        · exact absurd ⟨s, hs, hms⟩ hl

theorem get_foldl_const (l : List Nat) (b : Nat) (d : Dict Nat Nat) (n : Nat) :
    (l.foldl (fun d n => d.set n b) d).get n = if n ∈ l then some b else d.get n := by
  induction l generalizing d with
  | nil => simp
  | cons x l ih =>
    rw [List.foldl_cons, ih, Dict.get_set]
    by_cases h1 : n ∈ l
    · simp [h1]
    · by_cases h2 : n = x <;> simp [h1, h2]

theorem nodup_foldl_const (l : List Nat) (b : Nat) (d : Dict Nat Nat) (h : d.keys.Nodup) :
    (l.foldl (fun d n => d.set n b) d).keys.Nodup := by
  induction l generalizing d with
  | nil => exact h
  | cons x l ih => exact ih _ (Dict.nodup_set x b h)

theorem actMapping_get {nodes : List Nat} {sels : List ActSel} {d0 d : Dict Nat Nat}
    (hn0 : d0.keys.Nodup) (h : actMapping nodes sels d0 = some d) :
    d.keys.Nodup ∧ ∀ n v, d.get n = some v ↔
      (n ∈ nodes ∧ ∃ s, LastWith (fun s : ActSel => s.filter n = true) sels s ∧ s.bits = v) ∨
      ((n ∈ nodes → ∀ s ∈ sels, s.filter n = false) ∧ d0.get n = some v) := by
  induction sels generalizing d0 with
  | nil =>
    simp only [actMapping, Option.some.injEq] at h
    subst h
    refine ⟨hn0, fun n v => ?_⟩
    constructor
    · intro hh; exact Or.inr ⟨by simp, hh⟩
    · rintro (⟨_, s, ⟨pre, post, h, _⟩, _⟩ | ⟨_, h⟩)
      · simp at h
      · exact h
  | cons s ss ih =>
    simp only [actMapping] at h
    cases hf : nodes.filter s.filter with
    | nil => rw [hf] at h; simp at h
    | cons x xs =>
      rw [hf] at h
      simp only at h
      obtain ⟨i1, i2⟩ := ih (nodup_foldl_const (x :: xs) s.bits d0 hn0) h
      refine ⟨i1, fun n v => ?_⟩
      have hg0 : ((x :: xs).foldl (fun d n => d.set n s.bits) d0).get n =
          if n ∈ nodes ∧ s.filter n = true then some s.bits else d0.get n := by
        rw [get_foldl_const, ← hf]
        simp only [List.mem_filter]
      rw [i2 n v, hg0]
      by_cases hn : n ∈ nodes
      · by_cases hany : ∃ t ∈ ss, t.filter n = true
        · constructor
          · rintro (⟨_, t, ht, hv⟩ | ⟨hh, _⟩)
            · exact Or.inl ⟨hn, t, (lastWith_cons _ _ _ _).mpr (Or.inl ht), hv⟩
            · obtain ⟨t, ht, hm⟩ := hany
              rw [hh hn t ht] at hm; simp at hm
          · rintro (⟨_, t, ht, hv⟩ | ⟨hh, _⟩)
            · rcases (lastWith_cons _ _ _ _).mp ht with ht | ⟨_, _, hno⟩
              · exact Or.inl ⟨hn, t, ht, hv⟩
              · obtain ⟨t, ht, hm⟩ := hany
                exact absurd hm (hno t ht)
            · obtain ⟨t, ht, hm⟩ := hany
              rw [hh hn t (by simp [ht])] at hm; simp at hm
        · have hall : ∀ t ∈ ss, t.filter n = false := by
            intro t ht
            by_contra hc
            exact hany ⟨t, ht, by simpa using hc⟩
          constructor
          · rintro (⟨_, t, ht, hv⟩ | ⟨_, hg⟩)
            · exact Or.inl ⟨hn, t, (lastWith_cons _ _ _ _).mpr (Or.inl ht), hv⟩
            · by_cases hs : s.filter n = true
              · rw [if_pos ⟨hn, hs⟩, Option.some.injEq] at hg
                refine Or.inl ⟨hn, s, (lastWith_cons _ _ _ _).mpr (Or.inr ⟨rfl, hs, ?_⟩), hg⟩
                intro t ht hm
                rw [hall t ht] at hm; simp at hm
              · rw [if_neg (fun hh => hs hh.2)] at hg
                refine Or.inr ⟨fun _ t ht => ?_, hg⟩
                rcases List.mem_cons.mp ht with e | ht
                · subst e; simpa using hs
                · exact hall t ht
          · rintro (⟨_, t, ht, hv⟩ | ⟨hh, hg⟩)
            · rcases (lastWith_cons _ _ _ _).mp ht with ht | ⟨e, hm, _⟩
              · exact Or.inl ⟨hn, t, ht, hv⟩
              · subst e
                refine Or.inr ⟨fun _ => hall, ?_⟩
                rw [if_pos ⟨hn, hm⟩, hv]
            · refine Or.inr ⟨fun _ => hall, ?_⟩
              have hs := hh hn s (by simp)
              rw [if_neg (fun hc => by rw [hs] at hc; simp at hc)]
              exact hg
      · simp [hn]

/-- C51.  The activation bits chosen for a node are those of the last selection whose filter accepts it; a
node no selection accepts gets no choice.  The choice fails exactly when some selection accepts no node. -/
theorem C51_last_selection (nodes : List Nat) (sels : List ActSel) :
    (∀ d, actMapping nodes sels [] = some d → ∀ n v, d.get n = some v ↔
      n ∈ nodes ∧ ∃ s, LastWith (fun s : ActSel => s.filter n = true) sels s ∧ s.bits = v) ∧
    (actMapping nodes sels [] = none ↔ ∃ s ∈ sels, ∀ n ∈ nodes, s.filter n = false) := by
  constructor
  · intro d h n v
    rw [(actMapping_get (by simp [Dict.keys]) h).2 n v]
    simp [Dict.get_nil]
  · generalize ([] : Dict Nat Nat) = d0
    induction sels generalizing d0 with
    | nil => simp [actMapping]
    | cons s ss ih =>
      simp only [actMapping]
      cases hf : nodes.filter s.filter with
      | nil =>
        simp only [true_iff]
        refine ⟨s, by simp, fun n hn => ?_⟩
        by_contra hc
        have : n ∈ nodes.filter s.filter := List.mem_filter.mpr ⟨hn, by simpa using hc⟩
        rw [hf] at this; simp at this
      | cons x xs =>
        simp only
        rw [ih]
        have hx : x ∈ nodes ∧ s.filter x = true := by
          rw [← List.mem_filter, hf]; simp
        constructor
        · rintro ⟨t, ht, h⟩; exact ⟨t, by simp [ht], h⟩
        · rintro ⟨t, ht, h⟩
          rcases List.mem_cons.mp ht with e | ht
          · subst e
            have := h x hx.1
            rw [hx.2] at this; simp at this
          · exact ⟨t, ht, h⟩

/-- What is recorded for an attribute of a node. -/
def recorded (d : Dict Nat (Dict Name Nat)) (n : Nat) (a : Name) : Option Nat := (d.get n).bind (fun e => e.get a)

theorem addWNodes_get {attrsOf : Nat → List Attr} {s : WSel} {ns : List Nat} {d d' : Dict Nat (Dict Name Nat)}
    (hk : d.keys.Nodup ∧ ∀ n e, d.get n = some e → e.keys.Nodup) (h : addWNodes attrsOf s ns d = some d') :
    (d'.keys.Nodup ∧ ∀ n e, d'.get n = some e → e.keys.Nodup) ∧
    ∀ n a, recorded d' n a = if n ∈ ns ∧ a = s.attr then some s.bits else recorded d n a := by
  induction ns generalizing d with
  | nil => simp only [addWNodes, Option.some.injEq] at h; subst h; exact ⟨hk, by simp⟩
  | cons x xs ih =>
    simp only [addWNodes] at h
    split at h
    · simp at h
    · split at h
      · simp at h
      · have hold : ((d.get x).getD []).keys.Nodup := by
          cases hx : d.get x with
          | none => simp [Dict.keys]
          | some e => exact hk.2 x e hx
        have hk1 : (d.set x (((d.get x).getD []).set s.attr s.bits)).keys.Nodup ∧
            ∀ n e, (d.set x (((d.get x).getD []).set s.attr s.bits)).get n = some e → e.keys.Nodup := by
          refine ⟨Dict.nodup_set _ _ hk.1, ?_⟩
          intro n e he
          rw [Dict.get_set] at he
          split at he
          · simp only [Option.some.injEq] at he
            subst he
            exact Dict.nodup_set _ _ hold
          · exact hk.2 n e he
        obtain ⟨i1, i2⟩ := ih hk1 h
        refine ⟨i1, fun n a => ?_⟩
        rw [i2 n a]
        by_cases h1 : n ∈ xs ∧ a = s.attr
        · rw [if_pos h1, if_pos ⟨by simp [h1.1], h1.2⟩]
        · rw [if_neg h1]
          unfold recorded
          rw [Dict.get_set]
          by_cases h2 : n = x
          · subst h2
            rw [if_pos rfl, Option.bind_some, Dict.get_set]
            by_cases h3 : a = s.attr
            · rw [if_pos h3, if_pos ⟨by simp, h3⟩]
            · rw [if_neg h3, if_neg (fun hh => h3 hh.2)]
              cases d.get n with
              | none => simp [Dict.get_nil]
              | some e => rfl
          · rw [if_neg h2, if_neg]
            rintro ⟨e1, e2⟩
            rcases List.mem_cons.mp e1 with e1 | e1
            · exact h2 e1
            · exact h1 ⟨e1, e2⟩

theorem wMapping_get {attrsOf : Nat → List Attr} {nodes : List Nat} {sels : List WSel}
    {d0 d : Dict Nat (Dict Name Nat)} (hk : d0.keys.Nodup ∧ ∀ n e, d0.get n = some e → e.keys.Nodup)
    (h : wMapping attrsOf nodes sels d0 = some d) :
    (d.keys.Nodup ∧ ∀ n e, d.get n = some e → e.keys.Nodup) ∧
    (∀ n ∈ nodes, ∀ a s, LastWith (fun s : WSel => s.filter n = true ∧ s.attr = a) sels s →
      recorded d n a = some s.bits) ∧
    (∀ n a, (n ∉ nodes ∨ ∀ s ∈ sels, ¬ (s.filter n = true ∧ s.attr = a)) → recorded d n a = recorded d0 n a) := by
  induction sels generalizing d0 with
  | nil =>
    simp only [wMapping, Option.some.injEq] at h
    subst h
    refine ⟨hk, ?_, fun _ _ _ => rfl⟩
    rintro n _ a s ⟨pre, post, hh, _⟩
    simp at hh
  | cons s ss ih =>
    simp only [wMapping] at h
    cases hf : nodes.filter s.filter with
    | nil => rw [hf] at h; simp at h
    | cons x xs =>
      rw [hf] at h
      simp only at h
      cases ha : addWNodes attrsOf s (x :: xs) d0 with
      | none => rw [ha] at h; simp at h
      | some d1 =>
        rw [ha] at h
        simp only at h
        obtain ⟨k1, g1⟩ := addWNodes_get hk ha
        obtain ⟨i1, i2, i3⟩ := ih k1 h
        refine ⟨i1, ?_, ?_⟩
        · intro n hn a t ht
          rcases (lastWith_cons _ _ _ _).mp ht with ht | ⟨e, hm, hno⟩
          · exact i2 n hn a t ht
          · subst e
            rw [i3 n a (Or.inr hno), g1, ← hf, if_pos ⟨List.mem_filter.mpr ⟨hn, hm.1⟩, hm.2.symm⟩]
        · intro n a hno
          rw [i3 n a (hno.imp id (fun hh t ht => hh t (by simp [ht]))), g1, ← hf, if_neg]
          rintro ⟨e1, e2⟩
          obtain ⟨e3, e4⟩ := List.mem_filter.mp e1
          rcases hno with hno | hno
          · exact hno e3
          · exact hno s (by simp) ⟨e4, e2.symm⟩

/-! ### What a choice does to the candidates -/

theorem manualAct_result {c c' : NodeCfg} {b : Nat} (h : manualAct c b = some c') :
    c'.cands = c.cands.filter (fun d => decide (d.act.nBits = b)) ∧ c'.cands ≠ [] ∧
    c'.base = { c.base with act := { c.base.act with nBits := b } } := by
  unfold manualAct at h
  split at h
  · simp at h
  · split at h
    · simp at h
    · rename_i d ds hf
      simp only [Option.some.injEq] at h
      subst h
      exact ⟨hf.symm, by simp, rfl⟩

theorem getAttr_exact {w : WCfg} {a : Name} {x : WAttr} (hn : w.named.keys.Nodup) (ha : a ∈ w.named.keys)
    (h : w.getAttr (.named a) = some x) : (a, x) ∈ w.named := by
  unfold WCfg.getAttr at h
  simp only at h
  obtain ⟨v, hv⟩ : ∃ v, w.named.get a = some v := by
    cases hg : w.named.get a with
    | none => exact absurd ha ((Dict.get_none_iff _ _).mp hg)
    | some v => exact ⟨v, rfl⟩
  have hmem := Dict.get_some_mem hv
  split at h
  · simp at h
  · rename_i p hp
    simp only [Option.some.injEq] at h
    have : (a, v) ∈ w.named.filter (fun p => hasSub p.1 a) :=
      List.mem_filter.mpr ⟨hmem, (hasSub_iff _ _).mpr (List.infix_refl _)⟩
    rw [hp] at this
    simp only [List.mem_singleton] at this
    rw [← h, ← this]; exact hmem
  · exact Dict.get_some_mem h

theorem attrBits_hasBits {c : Cnd} {a : Name} {b : Nat} (hn : c.weights.named.keys.Nodup)
    (h : attrBits c a = some b) : HasBits c a b := by
  unfold attrBits at h
  unfold HasBits
  by_cases ha : a = posAttr
  · rw [if_pos ha] at h ⊢
    split at h
    · simp at h
    · rename_i p ps hp
      split at h
      · simp at h
      · rename_i hen
        split at h
        · simp at h
        · rename_i hb
          simp only [Option.some.injEq] at h
          subst h
          rw [hp]
          refine ⟨by simp, ?_⟩
          simp only [List.any_eq_true, not_exists, not_and, Bool.not_eq_true', decide_eq_true_iff] at hen hb
          intro q hq
          refine ⟨by simpa using hen q hq, ?_⟩
          rcases List.mem_cons.mp hq with e | hq
          · rw [e]
          · by_contra hc; exact hb q hq hc
  · rw [if_neg ha] at h ⊢
    split at h
    · rename_i hk
      cases hw : c.weights.getAttr (.named a) with
      | none => rw [hw] at h; simp at h
      | some w =>
        rw [hw] at h
        simp only at h
        split at h
        · rename_i he
          simp only [Option.some.injEq] at h
          exact ⟨w, getAttr_exact hn hk hw, he, h⟩
        · simp at h
    · simp at h

theorem fitsManual_true {c : Cnd} {d : Dict Name Nat} (h : fitsManual c d = some true) :
    ∀ a b, (a, b) ∈ d → attrBits c a = some b := by
  induction d with
  | nil => simp
  | cons p rest ih =>
    obtain ⟨a, b⟩ := p
    simp only [fitsManual] at h
    cases hx : attrBits c a with
    | none => rw [hx] at h; simp at h
    | some b' =>
      rw [hx] at h
      simp only at h
      split at h
      · rename_i e
        intro a' b'' hm
        rcases List.mem_cons.mp hm with hm | hm
        · simp only [Prod.mk.injEq] at hm
          rw [hm.1, hm.2, hx, e]
        · exact ih h a' b'' hm
      · simp at h

theorem fitsManual_false {c : Cnd} {d : Dict Name Nat} (h : fitsManual c d = some false) :
    ∃ a b b', (a, b) ∈ d ∧ attrBits c a = some b' ∧ b' ≠ b := by
  induction d with
  | nil => simp [fitsManual] at h
  | cons p rest ih =>
    obtain ⟨a, b⟩ := p
    simp only [fitsManual] at h
    cases hx : attrBits c a with
    | none => rw [hx] at h; simp at h
    | some b' =>
      rw [hx] at h
      simp only at h
      split at h
      · obtain ⟨a', b1, b2, h1, h2, h3⟩ := ih h
        exact ⟨a', b1, b2, by simp [h1], h2, h3⟩
      · rename_i e
        exact ⟨a, b, b', by simp, hx, e⟩

theorem manualCands_mem {d : Dict Name Nat} {cs ds : List Cnd} (h : manualCands d cs = some ds) :
    ∀ c, c ∈ ds ↔ c ∈ cs ∧ fitsManual c d = some true := by
  induction cs generalizing ds with
  | nil => simp only [manualCands, Option.some.injEq] at h; subst h; simp
  | cons x xs ih =>
    simp only [manualCands] at h
    cases hx : fitsManual x d with
    | none => rw [hx] at h; simp at h
    | some b =>
      rw [hx] at h
      simp only [Option.map_eq_some_iff] at h
      obtain ⟨r, h1, h2⟩ := h
      subst h2
      intro c
      cases b
      · simp only [Bool.false_eq_true, if_false]
        rw [ih h1 c, List.mem_cons]
        constructor
        · rintro ⟨e1, e2⟩; exact ⟨Or.inr e1, e2⟩
        · rintro ⟨e1 | e1, e2⟩
          · subst e1; rw [hx] at e2; simp at e2
          · exact ⟨e1, e2⟩
      · simp only [if_true]
        rw [List.mem_cons, ih h1 c, List.mem_cons]
        constructor
        · rintro (e | ⟨e1, e2⟩)
          · subst e; exact ⟨Or.inl rfl, hx⟩
          · exact ⟨Or.inr e1, e2⟩
        · rintro ⟨e1 | e1, e2⟩
          · exact Or.inl e1
          · exact Or.inr ⟨e1, e2⟩

theorem manualCands_some {d : Dict Name Nat} {cs ds : List Cnd} (h : manualCands d cs = some ds) :
    ∀ c ∈ cs, ∃ b, fitsManual c d = some b := by
  induction cs generalizing ds with
  | nil => simp
  | cons x xs ih =>
    simp only [manualCands] at h
    cases hx : fitsManual x d with
    | none => rw [hx] at h; simp at h
    | some b =>
      rw [hx] at h
      simp only [Option.map_eq_some_iff] at h
      obtain ⟨r, h1, _⟩ := h
      intro c hc
      rcases List.mem_cons.mp hc with e | hc
      · subst e; exact ⟨b, hx⟩
      · exact ih h1 c hc

theorem hasBits_unique {c : Cnd} {a : Name} {b b' : Nat} (hn : c.weights.named.keys.Nodup)
    (h : HasBits c a b) (h' : HasBits c a b') : b = b' := by
  unfold HasBits at h h'
  split at h
  · rename_i ha
    rw [if_pos ha] at h'
    obtain ⟨p, hp⟩ := List.exists_mem_of_ne_nil _ h.1
    rw [← (h.2 p hp).2, (h'.2 p hp).2]
  · rename_i ha
    rw [if_neg ha] at h'
    obtain ⟨w, h1, _, h2⟩ := h
    obtain ⟨w', h1', _, h2'⟩ := h'
    have e := (Dict.get_of_mem hn h1).symm.trans (Dict.get_of_mem hn h1')
    simp only [Option.some.injEq] at e
    rw [← h2, ← h2', e]

theorem manualWeights_result {c c' : NodeCfg} {d : Dict Name Nat}
    (hn : ∀ x ∈ c.cands, x.weights.named.keys.Nodup) (h : manualWeights c d = some c') :
    (∀ x, x ∈ c'.cands ↔ x ∈ c.cands ∧ ∀ a b, (a, b) ∈ d → HasBits x a b) ∧ c'.cands ≠ [] ∧
    c'.base.act = c.base.act := by
  unfold manualWeights at h
  cases hm : manualCands d c.cands with
  | none => rw [hm] at h; simp at h
  | some l =>
    rw [hm] at h
    cases l with
    | nil => simp at h
    | cons x xs =>
      simp only [Option.map_eq_some_iff] at h
      obtain ⟨w, h1, h2⟩ := h
      subst h2
      refine ⟨?_, by simp, rfl⟩
      intro y
      rw [manualCands_mem hm y]
      constructor
      · rintro ⟨e1, e2⟩
        exact ⟨e1, fun a b hab => attrBits_hasBits (hn y e1) (fitsManual_true e2 a b hab)⟩
      · rintro ⟨e1, e2⟩
        refine ⟨e1, ?_⟩
        obtain ⟨b, hb⟩ := manualCands_some hm y e1
        cases b
        · obtain ⟨a, b1, b2, f1, f2, f3⟩ := fitsManual_false hb
          exact absurd (hasBits_unique (hn y e1) (attrBits_hasBits (hn y e1) f2) (e2 a b1 f1)) f3
        · exact hb

theorem applyActs_get {am : Dict Nat Nat} {cfgs cfgs' : Dict Nat NodeCfg} (hn : am.keys.Nodup)
    (h : applyActs am cfgs = some cfgs') : ∀ n,
    (am.get n = none → cfgs'.get n = cfgs.get n) ∧
    (∀ b, am.get n = some b → ∃ c c', cfgs.get n = some c ∧ manualAct c b = some c' ∧ cfgs'.get n = some c') := by
  induction am generalizing cfgs with
  | nil =>
    simp only [applyActs, Option.some.injEq] at h
    subst h
    intro n
    exact ⟨fun _ => rfl, fun b hb => by simp [Dict.get_nil] at hb⟩
  | cons p rest ih =>
    obtain ⟨m, b⟩ := p
    simp only [applyActs] at h
    simp only [Dict.keys, List.map_cons, List.nodup_cons] at hn
    cases hc : cfgs.get m with
    | none => rw [hc] at h; simp at h
    | some c =>
      rw [hc] at h
      simp only at h
      cases hm : manualAct c b with
      | none => rw [hm] at h; simp at h
      | some c' =>
        rw [hm] at h
        simp only at h
        intro n
        obtain ⟨i1, i2⟩ := ih hn.2 h n
        rw [Dict.get_cons]
        by_cases hmn : m = n
        · subst hmn
          have hr : Dict.get rest m = none := (Dict.get_none_iff _ _).mpr hn.1
          have := i1 hr
          rw [Dict.get_set, if_pos rfl] at this
          simp only [if_true, reduceCtorEq, Option.some.injEq, false_imp_iff, true_and]
          rintro b' rfl
          exact ⟨c, c', hc, hm, this⟩
        · simp only [if_neg hmn]
          rw [Dict.get_set, if_neg (fun hh => hmn hh.symm)] at i1 i2
          exact ⟨i1, i2⟩

theorem applyWs_get {wm : Dict Nat (Dict Name Nat)} {cfgs cfgs' : Dict Nat NodeCfg} (hn : wm.keys.Nodup)
    (h : applyWs wm cfgs = some cfgs') : ∀ n,
    (wm.get n = none → cfgs'.get n = cfgs.get n) ∧
    (∀ b, wm.get n = some b → ∃ c c', cfgs.get n = some c ∧ manualWeights c b = some c' ∧
      cfgs'.get n = some c') := by
  induction wm generalizing cfgs with
  | nil =>
    simp only [applyWs, Option.some.injEq] at h
    subst h
    intro n
    exact ⟨fun _ => rfl, fun b hb => by simp [Dict.get_nil] at hb⟩
  | cons p rest ih =>
    obtain ⟨m, b⟩ := p
    simp only [applyWs] at h
    simp only [Dict.keys, List.map_cons, List.nodup_cons] at hn
    cases hc : cfgs.get m with
    | none => rw [hc] at h; simp at h
    | some c =>
      rw [hc] at h
      simp only at h
      cases hm : manualWeights c b with
      | none => rw [hm] at h; simp at h
      | some c' =>
        rw [hm] at h
        simp only at h
        intro n
        obtain ⟨i1, i2⟩ := ih hn.2 h n
        rw [Dict.get_cons]
        by_cases hmn : m = n
        · subst hmn
          have hr : Dict.get rest m = none := (Dict.get_none_iff _ _).mpr hn.1
          have := i1 hr
          rw [Dict.get_set, if_pos rfl] at this
          simp only [if_true, reduceCtorEq, Option.some.injEq, false_imp_iff, true_and]
          rintro b' rfl
          exact ⟨c, c', hc, hm, this⟩
        · simp only [if_neg hmn]
          rw [Dict.get_set, if_neg (fun hh => hmn hh.symm)] at i1 i2
          exact ⟨i1, i2⟩

/-- C51 (partial).  When the manual choice succeeds, each node keeps exactly the candidates with the bits of
the last activation selection that accepts it and, for each weight attribute, of the last weight selection
for that attribute that accepts it; at least one remains.  A node no selection accepts is unchanged.
Missing: choices that the API accepts are refused (`C51_short_name_violated`, `C51_part_of_name_violated`),
and the base configuration can differ from all remaining candidates (`C51_base_violated`). -/
theorem C51_candidates_partial (attrsOf : Nat → List Attr) (nodes : List Nat) (acts : List ActSel)
    (ws : List WSel) (cfgs cfgs' : Dict Nat NodeCfg)
    (hn : ∀ n c, cfgs.get n = some c → ∀ x ∈ c.cands, x.weights.named.keys.Nodup)
    (h : setManual attrsOf nodes acts ws cfgs = some cfgs') :
    ∀ n ∈ nodes,
      ((∀ s ∈ acts, s.filter n = false) → (∀ s ∈ ws, s.filter n = false) → cfgs'.get n = cfgs.get n) ∧
      (∀ c c', cfgs.get n = some c → cfgs'.get n = some c' → c.cands ≠ [] →
        c'.cands ≠ [] ∧ ∀ x, x ∈ c'.cands ↔ x ∈ c.cands ∧
          (∀ s, LastWith (fun s : ActSel => s.filter n = true) acts s → x.act.nBits = s.bits) ∧
          (∀ a s, LastWith (fun s : WSel => s.filter n = true ∧ s.attr = a) ws s → HasBits x a s.bits)) := by
  unfold setManual at h
  cases ham : actMapping nodes acts [] with
  | none => rw [ham] at h; simp at h
  | some am =>
  rw [ham] at h
  simp only at h
  cases hwm : wMapping attrsOf nodes ws [] with
  | none => rw [hwm] at h; simp at h
  | some wm =>
  rw [hwm] at h
  simp only at h
  cases h1 : applyActs am cfgs with
  | none => rw [h1] at h; simp at h
  | some cfgs1 =>
  rw [h1] at h
  simp only at h
  obtain ⟨amn, _⟩ := actMapping_get (by simp [Dict.keys]) ham
  have amg := (C51_last_selection nodes acts).1 am ham
  obtain ⟨⟨wmn, wen⟩, wlast, wnone⟩ := wMapping_get (d0 := [])
    ⟨by simp [Dict.keys], by intro n e he; simp [Dict.get_nil] at he⟩ hwm
  intro n hnn
  obtain ⟨a0, a1⟩ := applyActs_get amn h1 n
  obtain ⟨w0, w1⟩ := applyWs_get wmn h n
  -- what the two maps say about the node
  have hwrec : ∀ a b, recorded wm n a = some b →
      ∃ s, LastWith (fun s : WSel => s.filter n = true ∧ s.attr = a) ws s ∧ s.bits = b := by
    intro a b hb
    by_cases he : ∃ s ∈ ws, s.filter n = true ∧ s.attr = a
    · obtain ⟨s, hs⟩ := (lastWith_exists _ _).mpr he
      have := wlast n hnn a s hs
      rw [hb, Option.some.injEq] at this
      exact ⟨s, hs, this.symm⟩
    · have := wnone n a (Or.inr (fun s hs hm => he ⟨s, hs, hm⟩))
      rw [hb] at this
      simp [recorded, Dict.get_nil] at this
  constructor
  · intro hact hw
    have e1 : am.get n = none := by
      cases hg : am.get n with
      | none => rfl
      | some v =>
        obtain ⟨_, s, ⟨pre, post, e, hm, _⟩, _⟩ := (amg n v).mp hg
        rw [hact s (by rw [e]; simp)] at hm
        simp at hm
    have e2 : ∀ e, wm.get n = some e → e = [] := by
      intro e he
      cases e with
      | nil => rfl
      | cons p e =>
        have : recorded wm n p.1 = some p.2 := by
          unfold recorded
          rw [he, Option.bind_some, Dict.get_cons, if_pos rfl]
        obtain ⟨s, ⟨pre, post, e, hm, _⟩, _⟩ := hwrec _ _ this
        rw [hw s (by rw [e]; simp)] at hm
        simp at hm
    -- a recorded node has at least one recorded attribute
    have e3 : wm.get n = none := by
      cases hg : wm.get n with
      | none => rfl
      | some e =>
        exfalso
        have hne : ∀ (sels : List WSel) (d0 d : Dict Nat (Dict Name Nat)),
            (∀ m e, d0.get m = some e → e ≠ []) → wMapping attrsOf nodes sels d0 = some d →
            ∀ m e, d.get m = some e → e ≠ [] := by
          intro sels
          induction sels with
          | nil =>
            intro d0 d h0 hd
            simp only [wMapping, Option.some.injEq] at hd
            subst hd; exact h0
          | cons s ss ih =>
            intro d0 d h0 hd
            simp only [wMapping] at hd
            cases hf : nodes.filter s.filter with
            | nil => rw [hf] at hd; simp at hd
            | cons x xs =>
              rw [hf] at hd
              simp only at hd
              cases ha : addWNodes attrsOf s (x :: xs) d0 with
              | none => rw [ha] at hd; simp at hd
              | some d1 =>
                rw [ha] at hd
                simp only at hd
                refine ih d1 d ?_ hd
                clear hd hf
                revert ha h0
                generalize x :: xs = l
                intro h0 ha
                induction l generalizing d0 with
                | nil => simp only [addWNodes, Option.some.injEq] at ha; subst ha; exact h0
                | cons y ys ih2 =>
                  simp only [addWNodes] at ha
                  split at ha
                  · simp at ha
                  · split at ha
                    · simp at ha
                    · refine ih2 _ ?_ ha
                      intro m e he
                      rw [Dict.get_set] at he
                      split at he
                      · simp only [Option.some.injEq] at he
                        subst he
                        intro hc
                        have := Dict.get_set ((d0.get y).getD []) s.attr s.bits s.attr
                        rw [hc, if_pos rfl] at this
                        simp [Dict.get_nil] at this
                      · exact h0 m e he
        exact hne ws [] wm (by intro m e he; simp [Dict.get_nil] at he) hwm n e hg (e2 e hg)
    rw [w0 e3, a0 e1]
  · intro c c' hc hc' hne
    -- the candidates after the activations
    obtain ⟨c1, hc1, hne1, hx1⟩ : ∃ c1, cfgs1.get n = some c1 ∧ c1.cands ≠ [] ∧
        ∀ x, x ∈ c1.cands ↔ x ∈ c.cands ∧
          (∀ s, LastWith (fun s : ActSel => s.filter n = true) acts s → x.act.nBits = s.bits) := by
      cases hg : am.get n with
      | none =>
        refine ⟨c, (a0 hg).trans hc, hne, fun x => ⟨fun hx => ⟨hx, ?_⟩, fun hx => hx.1⟩⟩
        intro s hs
        have := (amg n s.bits).mpr ⟨hnn, s, hs, rfl⟩
        rw [hg] at this; simp at this
      | some b =>
        obtain ⟨c0, c1, f1, f2, f3⟩ := a1 b hg
        rw [hc, Option.some.injEq] at f1
        subst f1
        obtain ⟨g1, g2, _⟩ := manualAct_result f2
        refine ⟨c1, f3, g2, fun x => ?_⟩
        rw [g1, List.mem_filter, decide_eq_true_iff]
        constructor
        · rintro ⟨e1, e2⟩
          refine ⟨e1, fun s hs => ?_⟩
          have := (amg n s.bits).mpr ⟨hnn, s, hs, rfl⟩
          rw [hg, Option.some.injEq] at this
          rw [e2, this]
        · rintro ⟨e1, e2⟩
          obtain ⟨_, s, hs, hb⟩ := (amg n b).mp hg
          exact ⟨e1, by rw [e2 s hs, hb]⟩
    cases hg : wm.get n with
    | none =>
      rw [w0 hg, hc1, Option.some.injEq] at hc'
      subst hc'
      refine ⟨hne1, fun x => ?_⟩
      rw [hx1 x]
      constructor
      · rintro ⟨e1, e2⟩
        refine ⟨e1, e2, fun a s hs => ?_⟩
        have := wlast n hnn a s hs
        unfold recorded at this
        rw [hg] at this; simp at this
      · rintro ⟨e1, e2, _⟩; exact ⟨e1, e2⟩
    | some e =>
      obtain ⟨c0, c2, f1, f2, f3⟩ := w1 e hg
      rw [hc1, Option.some.injEq] at f1
      subst f1
      rw [hc', Option.some.injEq] at f3
      subst f3
      obtain ⟨g1, g2, _⟩ := manualWeights_result (fun x hx => hn n c hc x ((hx1 x).mp hx).1) f2
      refine ⟨g2, fun x => ?_⟩
      rw [g1 x, hx1 x]
      have hen := wen n e hg
      constructor
      · rintro ⟨⟨e1, e2⟩, e3⟩
        refine ⟨e1, e2, fun a s hs => e3 a s.bits ?_⟩
        have := wlast n hnn a s hs
        unfold recorded at this
        rw [hg, Option.bind_some] at this
        exact Dict.get_some_mem this
      · rintro ⟨e1, e2, e3⟩
        refine ⟨⟨e1, e2⟩, fun a b hab => ?_⟩
        have hr : recorded wm n a = some b := by
          unfold recorded
          rw [hg, Option.bind_some]
          exact Dict.get_of_mem hen hab
        obtain ⟨s, hs, hb⟩ := hwrec a b hr
        rw [← hb]; exact e3 a s hs

/-- C51.  A choice of activation bits for one node succeeds exactly when the output of the node is quantized
and some candidate has these bits; the bits of the base configuration become the chosen ones. -/
theorem C51_activation (c : NodeCfg) (b : Nat) :
    (∀ c', manualAct c b = some c' → c'.base.act.nBits = b ∧ c'.base.weights = c.base.weights ∧
      c'.cands = c.cands.filter (fun d => decide (d.act.nBits = b))) ∧
    ((∃ c', manualAct c b = some c') ↔
      (∀ d ∈ c.base :: c.cands, d.act.mode = .quant) ∧ ∃ d ∈ c.cands, d.act.nBits = b) := by
  constructor
  · intro c' h
    obtain ⟨h1, _, h3⟩ := manualAct_result h
    rw [h3]
    exact ⟨rfl, rfl, h1⟩
  · have hmode : c.mode? = some .quant ↔ ∀ d ∈ c.base :: c.cands, d.act.mode = .quant := by
      unfold NodeCfg.mode?
      constructor
      · intro h
        split at h
        · simp at h
        · rename_i hany
          simp only [Option.some.injEq] at h
          simp only [List.any_eq_true, decide_eq_true_iff, not_exists, not_and, not_not] at hany
          intro d hd
          rcases List.mem_cons.mp hd with e | hd
          · rw [e, h]
          · rw [hany d hd, h]
      · intro h
        have hb := h c.base (by simp)
        rw [if_neg, hb]
        simp only [List.any_eq_true, decide_eq_true_iff, not_exists, not_and, not_not]
        intro d hd
        rw [h d (by simp [hd]), hb]
    rw [← hmode]
    unfold manualAct
    constructor
    · rintro ⟨c', h⟩
      split at h
      · simp at h
      · rename_i hm
        refine ⟨by simpa using hm, ?_⟩
        split at h
        · simp at h
        · rename_i d ds hf
          have : d ∈ c.cands.filter (fun d => decide (d.act.nBits = b)) := by rw [hf]; simp
          rw [List.mem_filter, decide_eq_true_iff] at this
          exact ⟨d, this⟩
    · rintro ⟨hm, d, hd, hb⟩
      rw [if_neg (by simp [hm])]
      have : d ∈ c.cands.filter (fun d => decide (d.act.nBits = b)) :=
        List.mem_filter.mpr ⟨hd, by simpa using hb⟩
      cases hf : c.cands.filter (fun d => decide (d.act.nBits = b)) with
      | nil => rw [hf] at this; simp at this
      | cons x xs => exact ⟨_, rfl⟩

/-- C51.  A choice of weight bits for one attribute of a node is written in the base configuration: all its
positional attributes have the chosen bits, or the named attribute has them when the base configuration knows
it, and nothing else of the base configuration changes. -/
theorem C51_weights_base {c c' : NodeCfg} {a : Name} {b : Nat} (h : manualWeights c [(a, b)] = some c') :
    c'.base.act = c.base.act ∧
    (a = posAttr → c'.base.weights.named = c.base.weights.named ∧
      c'.base.weights.positional = c.base.weights.positional.map (fun p => (p.1, { p.2 with nBits := b }))) ∧
    (a ≠ posAttr → a ∈ c.base.weights.named.keys →
      c'.base.weights.positional = c.base.weights.positional ∧
      c'.base.weights.named = c.base.weights.named.map
        (fun q => if q.1 = a then (q.1, { q.2 with nBits := b }) else q)) := by
  unfold manualWeights at h
  cases hm : manualCands [(a, b)] c.cands with
  | none => rw [hm] at h; simp at h
  | some l =>
    rw [hm] at h
    cases l with
    | nil => simp at h
    | cons x xs =>
      simp only [Option.map_eq_some_iff, setAllBits] at h
      obtain ⟨w, h1, h2⟩ := h
      subst h2
      cases hs : setBaseBits c.base.weights a b with
      | none => rw [hs] at h1; simp at h1
      | some w' =>
        rw [hs] at h1
        simp only [Option.some.injEq] at h1
        subst h1
        refine ⟨rfl, ?_, ?_⟩
        · intro ha
          unfold setBaseBits at hs
          rw [if_pos ha, Option.some.injEq] at hs
          subst hs
          exact ⟨rfl, rfl⟩
        · intro ha hk
          unfold setBaseBits at hs
          rw [if_neg ha] at hs
          obtain ⟨p, hp, hpa⟩ := List.mem_map.mp hk
          have hf : p ∈ c.base.weights.named.filter (fun p => hasSub p.1 a) :=
            List.mem_filter.mpr ⟨hp, (hasSub_iff _ _).mpr (by rw [hpa])⟩
          split at hs
          · simp at hs
          · rename_i q hq
            rw [hq, List.mem_singleton] at hf
            simp only [Option.some.injEq] at hs
            subst hs
            rw [← hf, hpa]
            exact ⟨rfl, rfl⟩
          · rw [if_pos hk, Option.some.injEq] at hs
            subst hs
            exact ⟨rfl, rfl⟩

/-! ### Witnesses -/

/-- The attributes of a layer with a kernel and a bias, under the given names. -/
def twoAttrs (k b : Name) : Nat → List Attr := fun _ => [.named k, .named b]

/-- A configuration with the given base and candidates. -/
def oneNode (base : Cnd) (cs : List Cnd) : Dict Nat NodeCfg := [(0, ⟨base, cs⟩)]

example : (manualWeights ⟨sampleCnd 8 8 8 .quant, [sampleCnd 8 8 8 .quant, sampleCnd 4 8 8 .quant]⟩
    [(['k'], 4)]).map (fun c => c.base.weights.named.map (fun q => (q.1, q.2.nBits))) =
      some [(['k'], 4), (['b'], 8)] := by decide +kernel

/-- C51 is false of the code: two choices for different attributes of one layer, the first with a name of one
character, are refused, although each is accepted alone. -/
theorem C51_short_name_violated :
    setManual (twoAttrs ['k'] ['b']) [0] [] [⟨fun _ => true, 8, ['k']⟩, ⟨fun _ => true, 8, ['b']⟩]
      (oneNode (sampleCnd 8 8 8 .quant) [sampleCnd 8 8 8 .quant]) = none ∧
    (setManual (twoAttrs ['k'] ['b']) [0] [] [⟨fun _ => true, 8, ['k']⟩]
      (oneNode (sampleCnd 8 8 8 .quant) [sampleCnd 8 8 8 .quant])).isSome = true ∧
    (setManual (twoAttrs ['k'] ['b']) [0] [] [⟨fun _ => true, 8, ['b']⟩]
      (oneNode (sampleCnd 8 8 8 .quant) [sampleCnd 8 8 8 .quant])).isSome = true := by decide +kernel

/-- A candidate whose attributes have long names. -/
def longCnd : Cnd :=
  ⟨⟨.pot, .pot, 8, .quant, .auto⟩, ⟨some 32, [(['c', '/', 'k', 'e'], ⟨.pot, 8, true, true⟩)], []⟩⟩

/-- C51 is false of the code: a selection by a part of the name of an attribute is accepted as matching the
attribute, and then refused although the candidate has the chosen bits. -/
theorem C51_part_of_name_violated :
    (wMapping (fun _ => [.named ['c', '/', 'k', 'e']]) [0] [⟨fun _ => true, 8, ['k', 'e']⟩] []).isSome = true ∧
    setManual (fun _ => [.named ['c', '/', 'k', 'e']]) [0] [] [⟨fun _ => true, 8, ['k', 'e']⟩]
      (oneNode longCnd [longCnd]) = none ∧
    (setManual (fun _ => [.named ['c', '/', 'k', 'e']]) [0] [] [⟨fun _ => true, 8, ['c', '/', 'k', 'e']⟩]
      (oneNode longCnd [longCnd])).isSome = true := by decide +kernel

/-- C51 is false of the code: after the choice of activation bits, the base configuration is none of the
remaining candidates. -/
theorem C51_base_violated :
    (setManual (twoAttrs ['k'] ['b']) [0] [⟨fun _ => true, 4⟩] []
      (oneNode (sampleCnd 8 8 8 .quant) [sampleCnd 8 8 8 .quant, sampleCnd 4 8 4 .quant])).map
        (fun d => (d.get 0).map (fun c => c.cands.any (fun x => x.same c.base))) = some (some false) := by
  decide +kernel

/-- C51 is false of the code: a choice with filters and an empty list of bits is dropped without an error. -/
theorem C51_empty_violated (f : Nat → Bool) (sels : List ActSel) :
    addActSels sels [f] [] = some sels := by
  simp [addActSels, expandTo]

/-- C51.  A choice with one number of bits, or one for each filter, records one selection for each filter, in
order, after the earlier ones. -/
theorem C51_recorded (sels : List ActSel) (filters : List (Nat → Bool)) (bits : List Nat) :
    (bits.length = filters.length → filters ≠ [] →
      ∃ new, addActSels sels filters bits = some (sels ++ new) ∧ new.map (·.filter) = filters ∧
        new.map (·.bits) = bits) ∧
    (∀ b, bits = [b] → ∃ new, addActSels sels filters bits = some (sels ++ new) ∧
      new.map (·.filter) = filters ∧ ∀ s ∈ new, s.bits = b) ∧
    (1 < bits.length → bits.length ≠ filters.length → addActSels sels filters bits = none) := by
  have hzip : ∀ (bs : List Nat) (fs : List (Nat → Bool)), bs.length = fs.length →
      ((bs.zip fs).map (fun p => (⟨p.2, p.1⟩ : ActSel))).map (·.filter) = fs ∧
      ((bs.zip fs).map (fun p => (⟨p.2, p.1⟩ : ActSel))).map (·.bits) = bs := by
    intro bs
    induction bs with
    | nil => intro fs h; cases fs <;> simp_all
    | cons b bs ih =>
      intro fs h
      cases fs with
      | nil => simp at h
      | cons f fs =>
        simp only [List.length_cons, Nat.add_right_cancel_iff] at h
        obtain ⟨h1, h2⟩ := ih fs h
        simp only [List.zip_cons_cons, List.map_cons, h1, h2, and_self]
  refine ⟨?_, ?_, ?_⟩
  · intro hl hne
    have he : expandTo filters.length bits = some bits := by
      unfold expandTo
      rw [if_neg (fun hh => hh.2 hl)]
      split
      · rename_i v
        rw [if_neg]
        simp only [List.length_cons, List.length_nil] at hl
        omega
      · rfl
    refine ⟨_, by unfold addActSels; rw [he]; rfl, hzip bits filters hl⟩
  · rintro b rfl
    have he : expandTo filters.length [b] = some (if 1 < filters.length then List.replicate filters.length b
        else [b]) := by
      unfold expandTo
      simp only [List.length_cons, List.length_nil, Nat.zero_add, Nat.lt_irrefl, false_and, if_false]
      split <;> rfl
    refine ⟨_, by unfold addActSels; rw [he]; rfl, ?_, ?_⟩
    · split
      · exact (hzip _ filters (by simp)).1
      · rename_i hl
        cases filters with
        | nil => rfl
        | cons f fs =>
          cases fs with
          | nil => rfl
          | cons g gs => simp at hl
    · intro s hs
      obtain ⟨p, hp, rfl⟩ := List.mem_map.mp hs
      have hp1 := (List.of_mem_zip hp).1
      split at hp1
      · exact (List.mem_replicate.mp hp1).2
      · simpa using hp1
  · intro h1 h2
    unfold addActSels expandTo
    rw [if_pos ⟨h1, h2⟩]; rfl

theorem expandTo_same {α : Type} (k : Nat) (l : List α) (h : l.length = k) : expandTo k l = some l := by
  unfold expandTo
  rw [if_neg (fun hh => hh.2 h)]
  split
  · rw [if_neg]
    simp only [List.length_cons, List.length_nil] at h
    omega
  · rfl

theorem expandTo_one {α : Type} {k : Nat} (hk : 0 < k) (v : α) : expandTo k [v] = some (List.replicate k v) := by
  unfold expandTo
  simp only [List.length_cons, List.length_nil, Nat.zero_add, Nat.lt_irrefl, false_and, if_false]
  split
  · rfl
  · have : k = 1 := by omega
    rw [this]; rfl

theorem wsels_zip (fs : List (Nat → Bool)) : ∀ (bs : List Nat) (as : List Name), bs.length = fs.length →
    as.length = fs.length →
    ((as.zip (bs.zip fs)).map (fun p => (⟨p.2.2, p.2.1, p.1⟩ : WSel))).map (·.filter) = fs ∧
    ((as.zip (bs.zip fs)).map (fun p => (⟨p.2.2, p.2.1, p.1⟩ : WSel))).map (·.bits) = bs ∧
    ((as.zip (bs.zip fs)).map (fun p => (⟨p.2.2, p.2.1, p.1⟩ : WSel))).map (·.attr) = as := by
  induction fs with
  | nil =>
    intro bs as hb ha
    rw [List.length_nil] at hb ha
    rw [List.length_eq_zero_iff.mp hb, List.length_eq_zero_iff.mp ha]
    simp
  | cons f fs ih =>
    intro bs as hb ha
    cases bs with
    | nil => simp at hb
    | cons b bs =>
      cases as with
      | nil => simp at ha
      | cons a as =>
        simp only [List.length_cons, Nat.add_right_cancel_iff] at hb ha
        obtain ⟨h1, h2, h3⟩ := ih bs as hb ha
        simp only [List.zip_cons_cons, List.map_cons, h1, h2, h3, and_self]

/-- C51, weights.  A choice with one number of bits and one attribute, or one of each for each filter, records one
selection for each filter, in order, after the earlier ones; other numbers of bits or attributes are refused. -/
theorem C51_recorded_weights (sels : List WSel) (filters : List (Nat → Bool)) (bits : List Nat)
    (attrs : List Name) :
    (bits.length = filters.length → attrs.length = filters.length →
      ∃ new, addWSels sels filters bits attrs = some (sels ++ new) ∧ new.map (·.filter) = filters ∧
        new.map (·.bits) = bits ∧ new.map (·.attr) = attrs) ∧
    (∀ b a, filters ≠ [] → bits = [b] → attrs = [a] →
      ∃ new, addWSels sels filters bits attrs = some (sels ++ new) ∧ new.map (·.filter) = filters ∧
        new.map (·.bits) = filters.map (fun _ => b) ∧ new.map (·.attr) = filters.map (fun _ => a)) ∧
    (1 < bits.length → bits.length ≠ filters.length → addWSels sels filters bits attrs = none) ∧
    (1 < attrs.length → attrs.length ≠ filters.length → addWSels sels filters bits attrs = none) := by
  refine ⟨?_, ?_, ?_, ?_⟩
  · intro hb ha
    refine ⟨_, ?_, wsels_zip filters bits attrs hb ha⟩
    unfold addWSels
    rw [expandTo_same _ _ hb, expandTo_same _ _ ha]
    rfl
  · rintro b a hne rfl rfl
    have hp : 0 < filters.length := List.length_pos_iff.mpr hne
    have hz := wsels_zip filters (List.replicate filters.length b) (List.replicate filters.length a)
      (by simp) (by simp)
    have hc : ∀ {α : Type} (v : α), filters.map (fun _ => v) = List.replicate filters.length v := by
      intro α v
      exact List.map_const' ..
    refine ⟨_, ?_, hz.1, by rw [hz.2.1, hc], by rw [hz.2.2, hc]⟩
    unfold addWSels
    rw [expandTo_one hp, expandTo_one hp]
    rfl
  · intro h1 h2
    have : expandTo filters.length bits = none := by
      unfold expandTo
      rw [if_pos ⟨h1, h2⟩]
    unfold addWSels
    rw [this]
  · intro h1 h2
    have : expandTo filters.length attrs = none := by
      unfold expandTo
      rw [if_pos ⟨h1, h2⟩]
    unfold addWSels
    rw [this]
    cases expandTo filters.length bits <;> rfl

example : ((addWSels [⟨fun _ => true, 8, ['k']⟩] [fun n => n == 0, fun n => n == 1] [4] [['b']]).map
    (·.map (·.bits))) = some [8, 4, 4] := by
  decide +kernel

example : (setManual (twoAttrs ['c', 'k'] ['c', 'b']) [0, 1] [⟨fun n => n == 0, 8⟩, ⟨fun _ => true, 4⟩] []
    [(0, ⟨sampleCnd 8 8 8 .quant, [sampleCnd 8 8 8 .quant, sampleCnd 4 8 4 .quant]⟩),
     (1, ⟨sampleCnd 8 8 8 .quant, [sampleCnd 8 8 8 .quant, sampleCnd 8 8 4 .quant]⟩)]).isSome = true := by
  decide +kernel

theorem addWNodes_some {attrsOf : Nat → List Attr} {s : WSel} (ha : 2 ≤ s.attr.length) {ns : List Nat}
    (hf : ∀ n ∈ ns, ∃ a ∈ attrsOf n, attrFits s.attr a = true) {d : Dict Nat (Dict Name Nat)}
    (hd : ∀ n e, d.get n = some e → ∀ k ∈ e.keys, 2 ≤ k.length) :
    ∃ d', addWNodes attrsOf s ns d = some d' ∧ ∀ n e, d'.get n = some e → ∀ k ∈ e.keys, 2 ≤ k.length := by
  induction ns generalizing d with
  | nil => exact ⟨d, rfl, hd⟩
  | cons n ns ih =>
    have h1 : (attrsOf n).any (attrFits s.attr) = true := by
      obtain ⟨a, h, h'⟩ := hf n (by simp)
      exact List.any_eq_true.2 ⟨a, h, h'⟩
    have hold : ∀ k ∈ ((d.get n).getD []).keys, 2 ≤ k.length := by
      cases hg : d.get n with
      | none => intro k hk; simp [Dict.keys] at hk
      | some e => exact hd n e hg
    have h2 : overrideOk ((d.get n).getD []) s.attr = true := by
      unfold overrideOk
      rw [List.all_eq_true]
      intro k hk
      have hl := hold k hk
      match k, hl with
      | _ :: c :: _, _ =>
        simp only [decide_eq_true_eq]
        intro e
        rw [← e] at ha
        simp at ha
    simp only [addWNodes, h1, h2, Bool.true_eq_false, if_false]
    apply ih (fun m hm => hf m (by simp [hm]))
    intro m e he k hk
    rw [Dict.get_set] at he
    split at he
    · cases he
      rw [Dict.keys_set] at hk
      split at hk
      · exact hold k hk
      · rcases List.mem_append.1 hk with h | h
        · exact hold k h
        · rw [List.mem_singleton.1 h]; exact ha
    · exact hd m e he k hk

/-- C51.  Weight selections whose filter finds a layer, and whose attribute names have two characters at least and are in
some attribute of every layer that is found, are accepted, however many of them select the same layer. -/
theorem C51_accepted (attrsOf : Nat → List Attr) (nodes : List Nat) (sels : List WSel)
    (hlen : ∀ s ∈ sels, 2 ≤ s.attr.length) (hfound : ∀ s ∈ sels, ∃ n ∈ nodes, s.filter n = true)
    (hfits : ∀ s ∈ sels, ∀ n ∈ nodes, s.filter n = true → ∃ a ∈ attrsOf n, attrFits s.attr a = true) :
    ∃ d, wMapping attrsOf nodes sels [] = some d := by
  suffices h : ∀ d : Dict Nat (Dict Name Nat), (∀ n e, d.get n = some e → ∀ k ∈ e.keys, 2 ≤ k.length) →
      ∃ d', wMapping attrsOf nodes sels d = some d' from
    h [] (by intro n e he; simp [Dict.get] at he)
  induction sels with
  | nil => exact fun d _ => ⟨d, rfl⟩
  | cons s ss ih =>
    intro d hd
    obtain ⟨n0, hn0, hs0⟩ := hfound s (by simp)
    simp only [wMapping]
    cases hl : nodes.filter s.filter with
    | nil =>
      have : n0 ∈ nodes.filter s.filter := List.mem_filter.2 ⟨hn0, hs0⟩
      rw [hl] at this
      simp at this
    | cons n ns =>
      have hmem : ∀ m ∈ n :: ns, ∃ a ∈ attrsOf m, attrFits s.attr a = true := by
        intro m hm
        rw [← hl] at hm
        obtain ⟨h1, h2⟩ := List.mem_filter.1 hm
        exact hfits s (by simp) m h1 h2
      obtain ⟨d', h1, h2⟩ := addWNodes_some (hlen s (by simp)) hmem hd
      simp only [h1]
      exact ih (fun t ht => hlen t (by simp [ht])) (fun t ht => hfound t (by simp [ht]))
        (fun t ht => hfits t (by simp [ht])) d' h2

/-- Two selections for the same attribute of the same layer. -/
example : ∃ d, wMapping (fun _ => [.named ['k', 'e', 'r']]) [0]
    [⟨fun _ => true, 4, ['k', 'e']⟩, ⟨fun _ => true, 2, ['k', 'e']⟩] [] = some d :=
  C51_accepted _ _ _ (by decide) (by decide) (by decide)

end MCT.Cand
