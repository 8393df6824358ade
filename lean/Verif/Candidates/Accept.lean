/-
Which configurations are accepted for a layer (C50).
-/
import Verif.Candidates.Load

namespace MCT.CandSpec
open MCT.Py MCT.Tpc MCT.Cand

/-- The layer has settings for the weight attribute. -/
def HasAttr (w : WCfg) : Attr → Prop
  | .pos i => i ∈ w.positional.keys
  | .named s => s ∈ w.named.keys

/-- Whether the weight attribute is quantized, `none` when it cannot be looked up. -/
def Enabled (w : WCfg) (a : Attr) : Option Bool := (w.getAttr a).map (·.enabled)

/-- The same weight attributes are there, and the same ones of them are quantized. -/
def SameEnabled (v w : WCfg) : Prop :=
  (∀ a, HasAttr v a ↔ HasAttr w a) ∧ ∀ a, HasAttr v a → Enabled v a = Enabled w a

end MCT.CandSpec

namespace MCT.Cand
open MCT.Py MCT.Tpc MCT.CandSpec

theorem dict_get_map {κ β : Type} [DecidableEq κ] (f : κ → β) (l : List κ) (k : κ) :
    Dict.get (l.map fun x => (x, f x)) k = if k ∈ l then some (f k) else none := by
  induction l with
  | nil => rfl
  | cons x l ih =>
    rw [List.map_cons, Dict.get_cons]
    by_cases h : x = k
    · subst h; simp
    · have : ¬ k = x := fun e => h e.symm
      simp only [h, if_false, ih, List.mem_cons, this, false_or]

theorem mode_get (w : WCfg) (a : Attr) :
    (HasAttr w a → Dict.get w.mode a = some (Enabled w a)) ∧ (¬ HasAttr w a → Dict.get w.mode a = none) := by
  have hm : w.mode = (w.positional.keys.map Attr.pos ++ w.named.keys.map Attr.named).map
      fun x => (x, Enabled w x) := by
    unfold WCfg.mode Enabled
    rw [List.map_append, List.map_map, List.map_map]
    rfl
  have hin : a ∈ w.positional.keys.map Attr.pos ++ w.named.keys.map Attr.named ↔ HasAttr w a := by
    cases a <;> simp [HasAttr]
  rw [hm, dict_get_map]
  exact ⟨fun h => if_pos (hin.mpr h), fun h => if_neg fun h' => h (hin.mp h')⟩

theorem dictSame_iff {κ α : Type} [DecidableEq κ] [DecidableEq α] (d e : Dict κ α) :
    dictSame d e = true ↔ ∀ k, d.get k = e.get k := by
  unfold dictSame
  rw [Bool.and_eq_true, List.all_eq_true, List.all_eq_true]
  simp only [decide_eq_true_iff]
  constructor
  · rintro ⟨h1, h2⟩ k
    by_cases hd : k ∈ d.keys
    · exact h1 k hd
    · by_cases he : k ∈ e.keys
      · exact h2 k he
      · rw [(Dict.get_none_iff _ _).mpr hd, (Dict.get_none_iff _ _).mpr he]
  · exact fun h => ⟨fun k _ => h k, fun k _ => h k⟩

theorem mode_same (v w : WCfg) : dictSame v.mode w.mode = true ↔ SameEnabled v w := by
  rw [dictSame_iff]
  constructor
  · intro h
    have hiff : ∀ a, HasAttr v a ↔ HasAttr w a := by
      intro a
      have := h a
      by_cases hv : HasAttr v a <;> by_cases hw : HasAttr w a
      · exact ⟨fun _ => hw, fun _ => hv⟩
      · rw [(mode_get v a).1 hv, (mode_get w a).2 hw] at this; cases this
      · rw [(mode_get v a).2 hv, (mode_get w a).1 hw] at this; cases this
      · exact ⟨fun x => absurd x hv, fun x => absurd x hw⟩
    refine ⟨hiff, fun a ha => ?_⟩
    have := h a
    rw [(mode_get v a).1 ha, (mode_get w a).1 ((hiff a).mp ha)] at this
    exact Option.some.inj this
  · rintro ⟨h1, h2⟩ a
    by_cases hv : HasAttr v a
    · rw [(mode_get v a).1 hv, (mode_get w a).1 ((h1 a).mp hv), h2 a hv]
    · rw [(mode_get v a).2 hv, (mode_get w a).2 (fun hw => hv ((h1 a).mpr hw))]

/-- C50.  Equal candidates: the same settings of the activation, except that its signedness is not compared, and the
same settings for every weight attribute. -/
theorem C50_equal (a b : Cnd) : a.same b = true ↔
    ({ a.act with signedness := b.act.signedness } : ActCfg) = b.act ∧ a.weights.simd = b.weights.simd ∧
    (∀ s, a.weights.named.get s = b.weights.named.get s) ∧
    ∀ i, a.weights.positional.get i = b.weights.positional.get i := by
  have hact : a.act.same b.act = true ↔ ({ a.act with signedness := b.act.signedness } : ActCfg) = b.act := by
    unfold ActCfg.same
    cases a.act; cases b.act
    simp [and_assoc]
  unfold Cnd.same WCfg.same
  rw [Bool.and_eq_true, hact, Bool.and_eq_true, Bool.and_eq_true, decide_eq_true_iff, dictSame_iff,
    dictSame_iff, and_assoc]

/-- C50.  A layer is given exactly the base configuration and the candidates that are passed, and they are refused
exactly when the base is not one of the candidates, or when they do not all quantize the same tensors. -/
theorem C50_accepted (base : Cnd) (cs : List Cnd) (cfg : NodeCfg) :
    mkNodeCfg base cs = some cfg ↔ cfg = ⟨base, cs⟩ ∧ (∃ c ∈ cs, base.same c = true) ∧
      (∀ c ∈ cs, c.act.mode = base.act.mode) ∧ ∀ c ∈ cs, SameEnabled base.weights c.weights := by
  unfold mkNodeCfg
  by_cases h1 : ∃ c ∈ cs, base.same c = true
  · have e1 : ¬ (cs.any (fun c => base.same c) = false) := by
      rw [Bool.not_eq_false, List.any_eq_true]; exact h1
    rw [if_neg e1]
    by_cases h2 : ∀ c ∈ cs, c.act.mode = base.act.mode
    · have e2 : ¬ (cs.any (fun c => decide (c.act.mode ≠ base.act.mode)) = true) := by
        rw [List.any_eq_true]
        rintro ⟨c, hc, h⟩
        exact of_decide_eq_true h (h2 c hc)
      rw [if_neg e2]
      by_cases h3 : ∀ c ∈ cs, SameEnabled base.weights c.weights
      · have e3 : ¬ (cs.any (fun c => !dictSame base.weights.mode c.weights.mode) = true) := by
          rw [List.any_eq_true]
          rintro ⟨c, hc, h⟩
          rw [(mode_same _ _).mpr (h3 c hc)] at h
          cases h
        rw [if_neg e3]
        constructor
        · intro h; cases h; exact ⟨rfl, h1, h2, h3⟩
        · rintro ⟨h, -⟩; rw [h]
      · have e3 : cs.any (fun c => !dictSame base.weights.mode c.weights.mode) = true := by
          by_contra hn
          refine h3 fun c hc => ?_
          rw [← mode_same]
          by_contra hb
          rw [List.any_eq_true] at hn
          exact hn ⟨c, hc, by simpa using hb⟩
        rw [if_pos e3]
        exact ⟨fun h => (by cases h), fun h => absurd h.2.2.2 h3⟩
    · have e2 : cs.any (fun c => decide (c.act.mode ≠ base.act.mode)) = true := by
        push Not at h2
        obtain ⟨c, hc, h⟩ := h2
        rw [List.any_eq_true]
        exact ⟨c, hc, decide_eq_true h⟩
      rw [if_pos e2]
      exact ⟨fun h => (by cases h), fun h => absurd h.2.2.1 h2⟩
  · have e1 : cs.any (fun c => base.same c) = false := by
      by_contra hn
      rw [Bool.not_eq_false, List.any_eq_true] at hn
      exact h1 hn
    rw [if_pos e1]
    exact ⟨fun h => (by cases h), fun h => absurd h.2.1 h1⟩

/-- The match of `attrCfgOf`. -/
def pick (dflt : AttrCfg) : List (Name × AttrCfg) → Option AttrCfg
  | [] => some dflt
  | [p] => some p.2
  | _ => none

theorem pick_some {attrs : List (Name × AttrCfg)} {dflt ac : AttrCfg} (f : Name × AttrCfg → Bool) (fits : Name → Prop)
    (hf : ∀ p, f p = true ↔ fits p.1) (hn : attrs.Nodup)
    (h : (∃ k, (k, ac) ∈ attrs ∧ fits k ∧ ∀ p ∈ attrs, fits p.1 → p = (k, ac)) ∨
      ((∀ p ∈ attrs, ¬ fits p.1) ∧ ac = dflt)) : ∃ x, pick dflt (attrs.filter f) = some x := by
  have hmem : ∀ p, p ∈ attrs.filter f ↔ p ∈ attrs ∧ fits p.1 := by
    intro p
    rw [List.mem_filter, hf]
  have hnl : (attrs.filter f).Nodup := hn.filter _
  generalize attrs.filter f = l at hmem hnl ⊢
  rcases h with ⟨k, hk, hf, hu⟩ | ⟨hno, -⟩
  · have h1 : (k, ac) ∈ l := (hmem _).mpr ⟨hk, hf⟩
    have h2 : ∀ p ∈ l, p = (k, ac) := fun p hp => hu p ((hmem p).mp hp).1 ((hmem p).mp hp).2
    clear hmem
    match l, hnl, h1, h2 with
    | [p], _, _, _ => exact ⟨p.2, rfl⟩
    | p :: q :: r, hnd, _, h2 =>
      have e1 := h2 p List.mem_cons_self
      have e2 := h2 q (List.mem_cons_of_mem _ List.mem_cons_self)
      rw [e1, e2] at hnd
      simp at hnd
  · cases l with
    | nil => exact ⟨_, rfl⟩
    | cons p r =>
      have := (hmem p).mp List.mem_cons_self
      exact absurd this.2 (hno p this.1)

theorem attrCfgOf_pick (o : OpCfg Name) (a : Attr) : attrCfgOf o a = pick o.defaultAttr (o.attrs.filter (fun p => match a with
    | .named s => hasSub s p.1
    | .pos _ => hasSub p.1 posAttr)) := by
  cases a <;> rfl

theorem attrCfgOf_some_iff (o : OpCfg Name) (a : Attr) (hn : o.attrs.Nodup) :
    (∃ ac, attrCfgOf o a = some ac) ↔ ∃ ac, SettingsOf o a ac := by
  constructor
  · rintro ⟨ac, h⟩
    exact ⟨ac, attrCfgOf_settings h⟩
  · rintro ⟨ac, h⟩
    rw [attrCfgOf_pick]
    cases a with
    | named s => exact pick_some _ (fun k => k <:+: s) (fun p => hasSub_iff _ _) hn h
    | pos i => exact pick_some _ (fun k => posAttr <:+: k) (fun p => hasSub_iff _ _) hn h

theorem addAttrs_some_iff (o : OpCfg Name) (attrs : List Attr) (w : WCfg) :
    (∃ v, addAttrs o attrs w = some v) ↔ ∀ a ∈ attrs, ∃ ac, attrCfgOf o a = some ac := by
  induction attrs generalizing w with
  | nil => simp [addAttrs]
  | cons a as ih =>
    unfold addAttrs
    cases hc : attrCfgOf o a with
    | none => simp [hc]
    | some c =>
      cases a <;> simp only [List.forall_mem_cons, hc] <;> rw [ih] <;> simp

/-- C50.  A configuration of the options gives a candidate exactly when its activation is not quantized with a
symmetric table, it does not both quantize and preserve its output, and the settings of every weight attribute of the
layer are found. -/
theorem C50_candidate (o : OpCfg Name) (attrs : List Attr) (hn : o.attrs.Nodup) :
    (∃ c, mkCnd o attrs = some c) ↔ o.actMethod ≠ .lutSym ∧ ¬ (o.enableAct = true ∧ o.preserving = true) ∧
      ∀ a ∈ attrs, ∃ ac, SettingsOf o a ac := by
  unfold mkCnd mkAct mkWCfg
  by_cases h1 : o.actMethod = .lutSym
  · simp [h1]
  · rw [if_neg h1]
    by_cases h2 : o.enableAct = true ∧ o.preserving = true
    · simp [h2]
    · have : ¬ ((o.enableAct && o.preserving) = true) := by rw [Bool.and_eq_true]; exact h2
      rw [if_neg this]
      have hiff : (∀ a ∈ attrs, ∃ ac, SettingsOf o a ac) ↔ ∃ v, addAttrs o attrs ⟨o.simd, [], []⟩ = some v := by
        rw [addAttrs_some_iff]
        exact forall_congr' fun a => forall_congr' fun _ => (attrCfgOf_some_iff o a hn).symm
      rw [hiff]
      cases hw : addAttrs o attrs ⟨o.simd, [], []⟩ with
      | none => simp
      | some v => simp [h1, h2]

/-- C50.  The quantization mode of a layer is read exactly when its candidates agree with the base. -/
theorem C50_mode (cfg : NodeCfg) (m : Mode) :
    cfg.mode? = some m ↔ cfg.base.act.mode = m ∧ ∀ c ∈ cfg.cands, c.act.mode = m := by
  unfold NodeCfg.mode?
  by_cases h : ∀ c ∈ cfg.cands, c.act.mode = cfg.base.act.mode
  · have e : ¬ (cfg.cands.any (fun d => decide (d.act.mode ≠ cfg.base.act.mode)) = true) := by
      rw [List.any_eq_true]
      rintro ⟨c, hc, hd⟩
      exact of_decide_eq_true hd (h c hc)
    rw [if_neg e]
    constructor
    · intro hm; cases hm; exact ⟨rfl, h⟩
    · rintro ⟨hm, -⟩; rw [hm]
  · have e : cfg.cands.any (fun d => decide (d.act.mode ≠ cfg.base.act.mode)) = true := by
      push Not at h
      obtain ⟨c, hc, hd⟩ := h
      rw [List.any_eq_true]
      exact ⟨c, hc, decide_eq_true hd⟩
    rw [if_pos e]
    refine ⟨fun hm => (by cases hm), fun hm => absurd (fun c hc => (hm.2 c hc).trans hm.1.symm) h⟩

/-- Two candidates of different activation bits are accepted, two that quantize different weights are not. -/
example :
    let c := fun n e => (⟨⟨.pot, .pot, n, .quant, .auto⟩, ⟨none, [(['k'], ⟨.sym, 8, true, e⟩)], []⟩⟩ : Cnd)
    mkNodeCfg (c 8 true) [c 8 true, c 4 true] = some ⟨c 8 true, [c 8 true, c 4 true]⟩ ∧
    mkNodeCfg (c 8 true) [c 8 true, c 4 false] = none ∧ mkNodeCfg (c 8 true) [c 4 true] = none := by
  decide +kernel

end MCT.Cand
