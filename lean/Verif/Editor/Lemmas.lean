/-
Helper lemmas about the network editor.
-/
import Verif.Editor.Spec
import Verif.Common.Lists

namespace MCT.Editor
open MCT.Py MCT.Tpc MCT.Cand

variable {B : Type}

/-! ### One configuration object -/

theorem has_set (o : Obj) (p : Param) (v : Val) (q : Param) :
    (o.set p v).has q = (o.has q || decide (q = p)) := by
  rw [Bool.eq_iff_iff, Dict.has_iff, Dict.keys_set, Bool.or_eq_true, Dict.has_iff, decide_eq_true_eq]
  split
  · rename_i h
    constructor
    · exact Or.inl
    · rintro (h1 | h1)
      · exact h1
      · exact h1 ▸ h
  · simp

/-- Set parameters one after the other. -/
def runO (c : Cls) : List (Param × Val) → Obj → Option Obj
  | [], o => some o
  | (p, v) :: kw, o => (setParam c o p v).bind (runO c kw)

theorem setAllA_eq (kw : List (Param × Val)) (o : Obj) : setAllA kw o = runO .act kw o := by
  induction kw generalizing o with
  | nil => rfl
  | cons q kw ih =>
    obtain ⟨p, v⟩ := q
    unfold setAllA runO
    cases setParam .act o p v with
    | none => rfl
    | some o1 => exact ih o1

theorem runO_append (c : Cls) (a b : List (Param × Val)) (o : Obj) :
    runO c (a ++ b) o = (runO c a o).bind (runO c b) := by
  induction a generalizing o with
  | nil => rfl
  | cons q a ih =>
    obtain ⟨p, v⟩ := q
    rw [List.cons_append]
    unfold runO
    cases setParam c o p v with
    | none => rfl
    | some o1 => exact ih o1

theorem setParam_some {c : Cls} {o o' : Obj} {p : Param} {v : Val} (h : setParam c o p v = some o') :
    (∀ q, o'.get q = if q = p then (if hasAttr c o p then some v else o.get p) else o.get q) ∧
    (∀ q, hasAttr c o' q = hasAttr c o q) ∧ (∀ q, o.has q = true → o'.has q = true) := by
  unfold setParam at h
  split at h
  · exact absurd h (by simp)
  split at h
  · rename_i hh
    split at h
    · exact absurd h (by simp)
    have e := Option.some.inj h
    subst e
    refine ⟨?_, ?_, ?_⟩
    · intro q
      rw [Dict.get_set, if_pos hh]
    · intro q
      unfold hasAttr at hh ⊢
      rw [has_set]
      by_cases hq : q = p
      · subst hq
        simp only [decide_true, Bool.or_true, Bool.true_or]
        exact hh.symm
      · simp [hq]
    · intro q hq
      rw [has_set, hq]; rfl
  · rename_i hh
    have e := Option.some.inj h
    subst e
    refine ⟨?_, fun _ => rfl, fun _ h => h⟩
    intro q
    rw [if_neg hh]
    split
    · rename_i e; rw [e]
    · rfl

theorem runO_some {c : Cls} {kw : List (Param × Val)} {o o' : Obj} (h : runO c kw o = some o') :
    (∀ p, o'.get p = after c o p (((kw.filter fun q => decide (q.1 = p)).getLast?).map (·.2))) ∧
    (∀ q, hasAttr c o' q = hasAttr c o q) ∧ (∀ q, o.has q = true → o'.has q = true) := by
  induction kw generalizing o with
  | nil =>
    have e := Option.some.inj h
    subst e
    exact ⟨fun _ => rfl, fun _ => rfl, fun _ h => h⟩
  | cons q kw ih =>
    obtain ⟨p, v⟩ := q
    unfold runO at h
    obtain ⟨o1, h1, h2⟩ := Option.bind_eq_some_iff.mp h
    obtain ⟨a1, a2, a3⟩ := setParam_some h1
    obtain ⟨b1, b2, b3⟩ := ih h2
    refine ⟨?_, fun q => (b2 q).trans (a2 q), fun q h => b3 q (a3 q h)⟩
    intro r
    rw [b1 r]
    by_cases hr : p = r
    · subst hr
      rw [List.filter_cons_of_pos (by simp)]
      cases hl : (kw.filter fun q => decide (q.1 = p)).getLast? with
      | none =>
        rw [List.getLast?_eq_none_iff] at hl
        rw [hl]
        simp only [after, Option.map_none, List.getLast?_singleton, Option.map_some]
        rw [a1 p, if_pos rfl]
      | some x =>
        rw [List.getLast?_cons, hl]
        simp only [after, Option.map_some, Option.getD_some]
        rw [a2 p, a1 p, if_pos rfl]
        by_cases hh : hasAttr c o p = true
        · simp only [if_pos hh]
        · simp only [if_neg hh]
    · rw [List.filter_cons_of_neg (by simpa using hr)]
      unfold after
      have e : o1.get r = o.get r := by rw [a1 r, if_neg (fun h => hr h.symm)]
      rw [e, a2 r]

/-! ### The configuration of the weights -/

/-- Set parameters of one attribute, or of all weights. -/
def runW (a : Option Attr) : List (Param × Val) → WObj → Option WObj
  | [], w => some w
  | (p, v) :: kw, w => (w.setParam a p v).bind (runW a kw)

theorem setAllW_eq (a : Option Attr) (kw : List (Param × Val)) (w : WObj) :
    setAllW a kw w = runW a kw w := by
  induction kw generalizing w with
  | nil => rfl
  | cons q kw ih =>
    obtain ⟨p, v⟩ := q
    unfold setAllW runW
    cases w.setParam a p v with
    | none => rfl
    | some w1 => exact ih w1

/-- The same attributes are configured. -/
def SameKeys (w w' : WObj) : Prop :=
  w'.named.keys = w.named.keys ∧ w'.positional.keys = w.positional.keys

theorem SameKeys.refl (w : WObj) : SameKeys w w := ⟨rfl, rfl⟩

theorem SameKeys.trans {a b c : WObj} (h : SameKeys a b) (h' : SameKeys b c) : SameKeys a c :=
  ⟨h'.1.trans h.1, h'.2.trans h.2⟩

theorem has_of_keys {κ α : Type} [DecidableEq κ] {d e : Dict κ α} (h : e.keys = d.keys) (k : κ) :
    e.has k = d.has k := by
  rw [Bool.eq_iff_iff, Dict.has_iff, Dict.has_iff, h]

theorem SameKeys.resolve {w w' : WObj} (h : SameKeys w w') (a : Attr) : w'.resolve a = w.resolve a := by
  cases a with
  | pos i => simp only [WObj.resolve]; rw [has_of_keys h.2]
  | named s => simp only [WObj.resolve]; rw [h.1, has_of_keys h.1]

theorem get_of_has {κ α : Type} [DecidableEq κ] {d : Dict κ α} {k : κ} (h : d.has k = true) :
    ∃ v, d.get k = some v := by
  cases hg : d.get k with
  | some v => exact ⟨v, rfl⟩
  | none =>
    rw [Dict.get_none_iff] at hg
    exact absurd ((Dict.has_iff d k).mp h) hg

theorem has_of_get {κ α : Type} [DecidableEq κ] {d : Dict κ α} {k : κ} {v : α} (h : d.get k = some v) :
    k ∈ d.keys := by
  by_contra hc
  rw [(Dict.get_none_iff d k).mpr hc] at h
  exact absurd h (by simp)

theorem resolve_attr {w : WObj} {a k : Attr} (h : w.resolve a = some k) : ∃ o, w.attr k = some o := by
  cases a with
  | pos i =>
    simp only [WObj.resolve] at h
    split at h
    · rename_i hh
      have e := Option.some.inj h
      subst e
      exact get_of_has hh
    · exact absurd h (by simp)
  | named s =>
    simp only [WObj.resolve] at h
    split at h
    · exact absurd h (by simp)
    · rename_i k' hk
      have e := Option.some.inj h
      subst e
      have : k' ∈ w.named.keys := by
        have : k' ∈ w.named.keys.filter (fun k => hasSub k s) := by rw [hk]; simp
        exact (List.mem_filter.mp this).1
      exact get_of_has ((Dict.has_iff _ _).mpr this)
    · split at h
      · rename_i hh
        have e := Option.some.inj h
        subst e
        exact get_of_has hh
      · exact absurd h (by simp)

theorem attr_update {w : WObj} {k : Attr} {o : Obj} (o' : Obj) (h : w.attr k = some o) :
    SameKeys w (w.update k o') ∧ (∀ j, (w.update k o').attr j = if j = k then some o' else w.attr j) ∧
    (w.update k o').fields = w.fields := by
  cases k with
  | pos i =>
    have hk := has_of_get (d := w.positional) h
    refine ⟨⟨rfl, ?_⟩, ?_, rfl⟩
    · show (w.positional.set i o').keys = _
      rw [Dict.keys_set, if_pos hk]
    · intro j
      cases j with
      | pos j =>
        show (w.positional.set i o').get j = _
        rw [Dict.get_set]
        by_cases hj : j = i
        · subst hj; simp
        · rw [if_neg hj, if_neg (by simpa using hj)]; rfl
      | named s => simp [WObj.update, WObj.attr]
  | named s =>
    have hk := has_of_get (d := w.named) h
    refine ⟨⟨?_, rfl⟩, ?_, rfl⟩
    · show (w.named.set s o').keys = _
      rw [Dict.keys_set, if_pos hk]
    · intro j
      cases j with
      | pos j => simp [WObj.update, WObj.attr]
      | named t =>
        show (w.named.set s o').get t = _
        rw [Dict.get_set]
        by_cases hj : t = s
        · subst hj; simp
        · rw [if_neg hj, if_neg (by simpa using hj)]; rfl

/-- What a change of an attribute does. -/
theorem change_some {w w' : WObj} {a : Attr} {f : Obj → Option Obj} (h : w.change a f = some w') :
    ∃ k o o', w.resolve a = some k ∧ w.attr k = some o ∧ f o = some o' ∧ w' = w.update k o' := by
  unfold WObj.change at h
  obtain ⟨k, h1, h⟩ := Option.bind_eq_some_iff.mp h
  obtain ⟨o, h2, h⟩ := Option.bind_eq_some_iff.mp h
  obtain ⟨o', h3, h⟩ := Option.map_eq_some_iff.mp h
  exact ⟨k, o, o', h1, h2, h3, h.symm⟩

/-- Several settings of an attribute are one change. -/
theorem runW_attr {w w' : WObj} {a k : Attr} {o : Obj} (kw : List (Param × Val))
    (hk : w.resolve a = some k) (ho : w.attr k = some o) (h : runW (some a) kw w = some w') :
    SameKeys w w' ∧ w'.fields = w.fields ∧ (∀ j, j ≠ k → w'.attr j = w.attr j) ∧
    ∃ o', w'.attr k = some o' ∧ runO .wAttr kw o = some o' := by
  induction kw generalizing w o with
  | nil =>
    have e := Option.some.inj h
    subst e
    exact ⟨SameKeys.refl w, rfl, fun _ _ => rfl, o, ho, rfl⟩
  | cons q kw ih =>
    obtain ⟨p, v⟩ := q
    unfold runW at h
    obtain ⟨w1, h1, h2⟩ := Option.bind_eq_some_iff.mp h
    obtain ⟨k', o1, o2, e1, e2, e3, e4⟩ := change_some (show w.change a _ = some w1 from h1)
    rw [hk] at e1
    have := Option.some.inj e1
    subst this
    rw [ho] at e2
    have := Option.some.inj e2
    subst this
    obtain ⟨u1, u2, u3⟩ := attr_update o2 ho
    rw [← e4] at u1 u2 u3
    obtain ⟨i1, i2, i3, o', i4, i5⟩ := ih ((u1.resolve a).trans hk)
      (by rw [u2 k, if_pos rfl]) h2
    refine ⟨u1.trans i1, i2.trans u3, ?_, o', i4, ?_⟩
    · intro j hj
      rw [i3 j hj, u2 j, if_neg hj]
    · unfold runO
      rw [e3, Option.bind_some, i5]

theorem runW_node {w w' : WObj} (kw : List (Param × Val)) (h : runW none kw w = some w') :
    w'.named = w.named ∧ w'.positional = w.positional ∧
      runO .wNode kw w.fields = some w'.fields := by
  induction kw generalizing w with
  | nil =>
    have e := Option.some.inj h
    subst e
    exact ⟨rfl, rfl, rfl⟩
  | cons q kw ih =>
    obtain ⟨p, v⟩ := q
    unfold runW at h
    obtain ⟨w1, h1, h2⟩ := Option.bind_eq_some_iff.mp h
    obtain ⟨o, e1, e2⟩ := Option.map_eq_some_iff.mp
      (show (Editor.setParam .wNode w.fields p v).map _ = some w1 from h1)
    obtain ⟨i1, i2, i3⟩ := ih h2
    rw [← e2] at i1 i2 i3
    refine ⟨i1, i2, ?_⟩
    unfold runO
    rw [e1, Option.bind_some, i3]

/-! ### The settings of a list of requests -/

/-- The settings for the targets `hit`. -/
def sel (hit : Target → Bool) (reqs : List (Target × Param × Val)) : List (Param × Val) :=
  (reqs.filter fun q => hit q.1).map (·.2)

theorem sel_append (hit : Target → Bool) (a b : List (Target × Param × Val)) :
    sel hit (a ++ b) = sel hit a ++ sel hit b := by simp [sel]

theorem sel_all {hit : Target → Bool} {t : Target} (h : hit t = true) (kw : List (Param × Val)) :
    sel hit (kw.map fun q => (t, q)) = kw := by
  unfold sel
  induction kw with
  | nil => rfl
  | cons q kw ih =>
    rw [List.map_cons, List.filter_cons_of_pos (by simpa using h), List.map_cons, ih]

theorem sel_none {hit : Target → Bool} {t : Target} (h : hit t = false) (kw : List (Param × Val)) :
    sel hit (kw.map fun q => (t, q)) = [] := by
  unfold sel
  induction kw with
  | nil => rfl
  | cons q kw ih => rw [List.map_cons, List.filter_cons_of_neg (by simp [h]), ih]

theorem lastValue_sel (hit : Target → Bool) (p : Param) (reqs : List (Target × Param × Val)) :
    lastValue hit p reqs = (((sel hit reqs).filter fun q => decide (q.1 = p)).getLast?).map (·.2) := by
  unfold lastValue sel
  rw [List.filter_map, List.getLast?_map, Option.map_map, List.filter_filter]
  congr 2
  congr 1
  funext q
  simp [Bool.and_comm]

/-- The change of a weights configuration by a list of requests. -/
def EvW (hN : Target → Bool) (hA : Attr → Target → Bool) (reqs : List (Target × Param × Val))
    (w w' : WObj) : Prop :=
  SameKeys w w' ∧ runO .wNode (sel hN reqs) w.fields = some w'.fields ∧
  ∀ k o, w.attr k = some o → ∃ o', w'.attr k = some o' ∧ runO .wAttr (sel (hA k) reqs) o = some o'

theorem EvW.of_none {hN : Target → Bool} {hA : Attr → Target → Bool} {reqs} (w : WObj)
    (h : sel hN reqs = []) (h' : ∀ k, sel (hA k) reqs = []) : EvW hN hA reqs w w := by
  refine ⟨SameKeys.refl w, by rw [h]; rfl, ?_⟩
  intro k o ho
  exact ⟨o, ho, by rw [h']; rfl⟩

theorem EvW.trans {hN : Target → Bool} {hA : Attr → Target → Bool} {r1 r2 : List (Target × Param × Val)}
    {a b c : WObj} (h : EvW hN hA r1 a b) (h' : EvW hN hA r2 b c) : EvW hN hA (r1 ++ r2) a c := by
  refine ⟨h.1.trans h'.1, ?_, ?_⟩
  · rw [sel_append, runO_append, h.2.1, Option.bind_some, h'.2.1]
  · intro k o ho
    obtain ⟨o1, e1, e2⟩ := h.2.2 k o ho
    obtain ⟨o2, e3, e4⟩ := h'.2.2 k o1 e1
    exact ⟨o2, e3, by rw [sel_append, runO_append, e2, Option.bind_some, e4]⟩

/-- Settings of one target. -/
theorem EvW.of_runW {hN : Target → Bool} {hA : Attr → Target → Bool} {t : Target} {a : Option Attr}
    {w w' : WObj} (kw : List (Param × Val)) (hn : hN t = decide (a = none))
    (ha : ∀ k, hA k t = decide (∃ b, a = some b ∧ w.resolve b = some k))
    (h : runW a kw w = some w') : EvW hN hA (kw.map fun q => (t, q)) w w' := by
  cases a with
  | none =>
    obtain ⟨e1, e2, e3⟩ := runW_node kw h
    refine ⟨⟨by rw [e1], by rw [e2]⟩, ?_, ?_⟩
    · rw [sel_all (by simpa using hn), e3]
    · intro k o ho
      refine ⟨o, ?_, by rw [sel_none (by simpa using ha k)]; rfl⟩
      cases k with
      | pos i => show w'.positional.get i = _; rw [e2]; exact ho
      | named s => show w'.named.get s = _; rw [e1]; exact ho
  | some b =>
    cases hk : w.resolve b with
    | none =>
      cases kw with
      | nil =>
        have e := Option.some.inj h
        subst e
        exact EvW.of_none w rfl fun _ => rfl
      | cons q kw =>
        exfalso
        unfold runW at h
        obtain ⟨w1, h1, _⟩ := Option.bind_eq_some_iff.mp h
        obtain ⟨k, _, _, e, _⟩ := change_some (show w.change b _ = some w1 from h1)
        rw [hk] at e
        exact absurd e (by simp)
    | some k =>
      obtain ⟨o, ho⟩ := resolve_attr hk
      obtain ⟨e1, e2, e3, o', e4, e5⟩ := runW_attr kw hk ho h
      refine ⟨e1, by rw [sel_none (by simpa using hn), e2]; rfl, ?_⟩
      intro j oj hj
      by_cases hjk : j = k
      · subst hjk
        rw [ho] at hj
        have := Option.some.inj hj
        subst this
        exact ⟨o', e4, by rw [sel_all (by rw [ha]; simpa using hk), e5]⟩
      · exact ⟨oj, by rw [e3 j hjk, hj],
          by rw [sel_none (by rw [ha]; simpa [hk] using fun h => hjk h.symm)]; rfl⟩

/-- A change of the method of a well formed attribute is three settings. -/
theorem setMethodW_runW {a : Attr} {m : Method} {w w' : WObj} (hw : WellW w)
    (h : setMethodW (some a) m w = some w') : runW (some a) (methodW m) w = some w' := by
  unfold setMethodW at h
  rw [Option.bind_some] at h
  obtain ⟨k, o, o', h1, h2, h3, h4⟩ := change_some h
  have e := Option.some.inj h3
  obtain ⟨f1, f2, f3⟩ := hw k o h2
  have key : ∀ (x : WObj) (ox : Obj) (p : Param) (v : Val), x.resolve a = some k → x.attr k = some ox →
      ox.has p = true → x.setParam (some a) p v = some (x.update k (ox.set p v)) := by
    intro x ox p v hx hox hp
    show x.change a _ = _
    unfold WObj.change
    rw [hx, Option.bind_some, hox, Option.bind_some]
    unfold setParam
    dsimp only
    rw [if_neg (by simp)]
    have : hasAttr .wAttr ox p = true := by unfold hasAttr; rw [hp]; rfl
    rw [if_pos this]
    simp [isProperty]
  have s1 := key w o .wParamsFn (.fn (.wParams m)) h1 h2 f2
  obtain ⟨u1, u2, _⟩ := attr_update (o.set .wParamsFn (.fn (.wParams m))) h2
  have s2 := key _ _ .wFn (.fn (if m = .lutPot ∨ m = .lutSym then .kmeans else .wQuantizer m))
    ((u1.resolve a).trans h1) (by rw [u2 k, if_pos rfl]) (by rw [has_set, f1]; rfl)
  obtain ⟨v1, v2, _⟩ := attr_update
    ((o.set .wParamsFn (.fn (.wParams m))).set .wFn
      (.fn (if m = .lutPot ∨ m = .lutSym then .kmeans else .wQuantizer m)))
    (show (w.update k (o.set .wParamsFn (.fn (.wParams m)))).attr k = some _ by rw [u2 k, if_pos rfl])
  have s3 := key _ _ .wMethod (.meth m) ((v1.resolve a).trans ((u1.resolve a).trans h1))
    (by rw [v2 k, if_pos rfl]) (by rw [has_set, has_set, f3]; rfl)
  have uu : ∀ (x : WObj) (o1 o2 : Obj), (x.update k o1).update k o2 = x.update k o2 := by
    intro x o1 o2
    have dd : ∀ {κ : Type} [DecidableEq κ] (d : Dict κ Obj) (i : κ), (d.set i o1).set i o2 = d.set i o2 := by
      intro κ _ d i
      have hh : (d.set i o1).has i = true := by
        rw [Dict.has_iff, Dict.keys_set]
        split
        · assumption
        · simp
      unfold Dict.set at hh ⊢
      by_cases hd : d.has i = true
      · rw [if_pos hd] at hh ⊢
        rw [if_pos hh, if_pos hd, List.map_map]
        apply List.map_congr_left
        intro p _
        by_cases hp : p.1 = i <;> simp [hp]
      · rw [if_neg hd] at hh ⊢
        rw [if_pos hh, if_neg hd, List.map_append]
        have : d.map (fun p => if p.1 = i then (p.1, o2) else p) = d := by
          conv_rhs => rw [← List.map_id d]
          apply List.map_congr_left
          intro p hp
          have : ¬ p.1 = i := by
            intro hc
            exact hd ((Dict.has_iff d i).mpr (List.mem_map.mpr ⟨p, hp, hc⟩))
          simp [this]
        rw [this]
        simp
    cases k with
    | pos i => unfold WObj.update; simp [dd]
    | named s => unfold WObj.update; simp [dd]
  unfold methodW
  simp only [runW]
  rw [s1, Option.bind_some, s2, Option.bind_some, s3, Option.bind_some, uu, uu, h4, ← e]
  have : wQuantizer m = (if m = .lutPot ∨ m = .lutSym then Fn.kmeans else .wQuantizer m) := by
    cases m <;> simp [wQuantizer]
  rw [this]
  rfl

theorem setMethodA_runO {m : Method} {o o' : Obj} (hw : WellA o) (h : setMethodA m o = some o') :
    runO .act (methodA m) o = some o' := by
  unfold setMethodA at h
  obtain ⟨pf, h1, h⟩ := Option.bind_eq_some_iff.mp h
  obtain ⟨qf, h2, h⟩ := Option.map_eq_some_iff.mp h
  have e1 : pf = .actParams m := by cases m <;> simp [actParamsFn] at h1 <;> exact h1.symm
  have e2 : qf = .actQuantizer m := by cases m <;> simp [actQuantizer] at h2 <;> exact h2.symm
  subst e1; subst e2
  have key : ∀ (x : Obj) (p : Param) (v : Val), x.has p = true → isProperty .act p = false →
      setParam .act x p v = some (x.set p v) := by
    intro x p v hp hn
    unfold setParam
    rw [if_neg (by simp)]
    have : hasAttr .act x p = true := by unfold hasAttr; rw [hp]; rfl
    rw [if_pos this, hn]
    rfl
  obtain ⟨f1, f2, f3⟩ := hw
  unfold methodA
  simp only [runO]
  rw [key o _ _ f2 rfl, Option.bind_some, key _ _ _ (by rw [has_set, f1]; rfl) rfl, Option.bind_some,
    key _ _ _ (by rw [has_set, has_set, f3]; rfl) rfl, Option.bind_some, h]

end MCT.Editor
