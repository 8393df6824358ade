/-
When the network editor rejects a rule (helper lemmas).
-/
import Verif.Editor.Evolve

namespace MCT.Editor
open MCT.Py MCT.Tpc MCT.Cand

variable {B : Type}

theorem mapM_none_iff {α β : Type} (f : α → Option β) (l : List α) :
    l.mapM f = none ↔ ∃ a ∈ l, f a = none := by
  induction l with
  | nil => simp
  | cons a l ih =>
    rw [List.mapM_cons]
    cases ha : f a with
    | none => simp [ha]
    | some b =>
      cases hl : l.mapM f with
      | none =>
        obtain ⟨x, hx, e⟩ := ih.mp hl
        simp only [Option.bind_eq_bind, Option.bind_some, Option.bind_none, true_iff]
        exact ⟨x, by simp [hx], e⟩
      | some r =>
        have : ¬ ∃ x ∈ l, f x = none := fun h => by rw [ih.mpr h] at hl; exact absurd hl (by simp)
        simp only [Option.bind_eq_bind, Option.bind_some, Option.pure_def, reduceCtorEq, false_iff]
        rintro ⟨x, hx, e⟩
        rcases List.mem_cons.mp hx with h | h
        · subst h; rw [ha] at e; exact absurd e (by simp)
        · exact this ⟨x, h, e⟩

theorem setParam_none_iff (c : Cls) (o : Obj) (p : Param) (v : Val) :
    setParam c o p v = none ↔ isProperty c p = true ∨ (c = .wNode ∧ p = .mappings) := by
  unfold setParam
  by_cases h1 : c = .wNode ∧ p = .mappings
  · rw [if_pos h1]; simp [h1]
  · rw [if_neg h1]
    by_cases h2 : isProperty c p = true
    · have : hasAttr c o p = true := by unfold hasAttr; rw [h2]; simp
      rw [if_pos this, if_pos h2]; simp [h2]
    · split <;> simp [h2, h1]

theorem runO_none_iff (c : Cls) (kw : List (Param × Val)) (o : Obj) :
    runO c kw o = none ↔ ∃ q ∈ kw, isProperty c q.1 = true ∨ (c = .wNode ∧ q.1 = .mappings) := by
  induction kw generalizing o with
  | nil => simp [runO]
  | cons q kw ih =>
    obtain ⟨p, v⟩ := q
    unfold runO
    cases h : setParam c o p v with
    | none =>
      simp only [Option.bind_none, true_iff]
      exact ⟨(p, v), by simp, (setParam_none_iff c o p v).mp h⟩
    | some o1 =>
      rw [Option.bind_some, ih]
      have hn : ¬ (isProperty c p = true ∨ (c = .wNode ∧ p = .mappings)) := by
        rw [← setParam_none_iff c o p v, h]; simp
      constructor
      · rintro ⟨q, hq, e⟩
        exact ⟨q, by simp [hq], e⟩
      · rintro ⟨q, hq, e⟩
        rcases List.mem_cons.mp hq with h' | h'
        · subst h'; exact absurd e hn
        · exact ⟨q, h', e⟩

theorem setAllA_none_iff (kw : List (Param × Val)) (o : Obj) : setAllA kw o = none ↔ BadA kw := by
  rw [setAllA_eq, runO_none_iff]
  unfold BadA
  simp [isProperty]

theorem change_isSome {w : WObj} {a k : Attr} {f : Obj → Option Obj} (hk : w.resolve a = some k)
    (hf : ∀ o, f o ≠ none) : w.change a f ≠ none := by
  obtain ⟨o, ho⟩ := resolve_attr hk
  unfold WObj.change
  rw [hk, Option.bind_some, ho, Option.bind_some]
  cases h : f o with
  | none => exact absurd h (hf o)
  | some o' => simp

theorem change_none_iff {w : WObj} {a : Attr} {f : Obj → Option Obj} (hf : ∀ o, f o ≠ none) :
    w.change a f = none ↔ w.resolve a = none := by
  cases h : w.resolve a with
  | none => simp [WObj.change, h]
  | some k =>
    simp only [reduceCtorEq, iff_false]
    exact change_isSome h hf

theorem setParam_wAttr (o : Obj) (p : Param) (v : Val) : setParam .wAttr o p v ≠ none := by
  rw [Ne, setParam_none_iff]
  simp [isProperty]

theorem setAllW_none_iff (a : Option Attr) (kw : List (Param × Val)) (w : WObj) :
    setAllW a kw w = none ↔ BadW w a kw := by
  rw [setAllW_eq]
  cases a with
  | none =>
    simp only [BadW]
    induction kw generalizing w with
    | nil => simp [runW]
    | cons q kw ih =>
      obtain ⟨p, v⟩ := q
      unfold runW
      simp only [WObj.setParam]
      cases h : setParam .wNode w.fields p v with
      | none =>
        have := (setParam_none_iff _ _ _ _).mp h
        have hp : p = .mappings := by simpa [isProperty] using this
        simp only [Option.map_none, Option.bind_none, true_iff]
        exact ⟨(p, v), by simp, hp⟩
      | some o =>
        have hp : ¬ p = .mappings := by
          intro hp
          rw [(setParam_none_iff .wNode w.fields p v).mpr (Or.inr ⟨rfl, hp⟩)] at h
          exact absurd h (by simp)
        rw [Option.map_some, Option.bind_some, ih]
        simp [hp]
  | some a =>
    simp only [BadW]
    cases kw with
    | nil => simp [runW]
    | cons q kw =>
      cases hk : w.resolve a with
      | none =>
        simp only [ne_eq, reduceCtorEq, not_false_eq_true, and_self, iff_true]
        unfold runW
        simp [WObj.setParam, WObj.change, hk]
      | some k =>
        simp only [reduceCtorEq, and_false, iff_false]
        generalize q :: kw = l
        induction l generalizing w with
        | nil => simp [runW]
        | cons q l ih =>
          obtain ⟨p, v⟩ := q
          unfold runW
          simp only [WObj.setParam]
          cases h : w.change a fun o => setParam .wAttr o p v with
          | none => exact absurd h (change_isSome hk fun o => setParam_wAttr o p v)
          | some w1 =>
            rw [Option.bind_some]
            obtain ⟨k', o, o', e1, e2, _, e4⟩ := change_some h
            refine ih w1 ?_
            rw [e4, (attr_update o' e2).1.resolve a, hk]

theorem setMethodA_none_iff (m : Method) (o : Obj) : setMethodA m o = none ↔ m = .lutSym := by
  cases m <;> simp [setMethodA, actParamsFn, actQuantizer]

theorem setMethodW_none_iff (a : Option Attr) (m : Method) (w : WObj) :
    setMethodW a m w = none ↔ NoAttr w a := by
  unfold setMethodW NoAttr
  cases a with
  | none => simp
  | some a =>
    rw [Option.bind_some, change_none_iff (by simp)]
    simp

theorem onCands_none_iff (f : Cand → Option Cand) (n : Node B) :
    onCands f n = none ↔ ∃ c ∈ n.cands, f c = none := by
  unfold onCands
  rw [Option.map_eq_none_iff, mapM_none_iff]

theorem onAct_none_iff (f : Obj → Option Obj) (c : Cand) : onAct f c = none ↔ f c.act = none := by
  unfold onAct; rw [Option.map_eq_none_iff]

theorem onWts_none_iff (f : WObj → Option WObj) (c : Cand) : onWts f c = none ↔ f c.wts = none := by
  unfold onWts; rw [Option.map_eq_none_iff]

theorem onFinalA_none_iff (f : Obj → Option Obj) {n : Node B} (hw : Well n) :
    onFinalA f n = none ↔ ∃ o, n.finalAct = some o ∧ f o = none := by
  unfold onFinalA Node.finalAct
  cases h : n.finalA with
  | unset => simp
  | own o => simp
  | cand i =>
    have hi := hw.inA i h
    simp [List.getElem?_eq_getElem hi, onAct_none_iff]

theorem onFinalW_none_iff (f : WObj → Option WObj) {n : Node B} (hw : Well n) :
    onFinalW f n = none ↔ ∃ o, n.finalWts = some o ∧ f o = none := by
  unfold onFinalW Node.finalWts
  cases h : n.finalW with
  | unset => simp
  | own o => simp
  | cand i =>
    have hi := hw.inW i h
    simp [List.getElem?_eq_getElem hi, onWts_none_iff]

theorem setFns_none_iff (a : Option Attr) (act wts : Option Fn) (c : Cand) :
    setFns a act wts c = none ↔ wts ≠ none ∧ NoAttr c.wts a := by
  unfold setFns
  dsimp only
  cases wts with
  | none => simp
  | some f =>
    simp only [Option.map_eq_none_iff, ne_eq, reduceCtorEq, not_false_eq_true, true_and]
    unfold NoAttr
    cases a with
    | none => simp
    | some a =>
      rw [Option.bind_some, change_none_iff (by simp)]
      simp

theorem exists_mem_const {α : Type} (l : List α) (P : Prop) : (∃ c ∈ l, P) ↔ l ≠ [] ∧ P := by
  cases l with
  | nil => simp
  | cons a l =>
    constructor
    · rintro ⟨_, _, h⟩; exact ⟨by simp, h⟩
    · rintro ⟨_, h⟩; exact ⟨a, by simp, h⟩

theorem exists_some_const {α : Type} (x : Option α) (P : Prop) : (∃ o, x = some o ∧ P) ↔ x ≠ none ∧ P := by
  cases x <;> simp

theorem apply_none_iff {A : Action B} {n : Node B} (hw : Well n) :
    A.apply n = none ↔ Rejects n A := by
  cases A with
  | candW a kw =>
    simp only [Action.apply, Rejects, onCands_none_iff, onWts_none_iff, setAllW_none_iff]
  | finalW a kw => simp only [Action.apply, Rejects, onFinalW_none_iff _ hw, setAllW_none_iff]
  | candA kw =>
    simp only [Action.apply, Rejects, onCands_none_iff, onAct_none_iff, setAllA_none_iff, exists_mem_const]
  | finalA kw =>
    simp only [Action.apply, Rejects, onFinalA_none_iff _ hw, setAllA_none_iff, exists_some_const]
  | paramsFn a act wts =>
    simp only [Action.apply, Rejects, onCands_none_iff, setFns_none_iff]
    constructor
    · rintro ⟨c, hc, h1, h2⟩; exact ⟨h1, c, hc, h2⟩
    · rintro ⟨h1, c, hc, h2⟩; exact ⟨c, hc, h1, h2⟩
  | finalAMethod m =>
    cases m with
    | none => simp [Action.apply, Rejects]
    | some m =>
      simp only [Action.apply, Rejects, onFinalA_none_iff _ hw, setMethodA_none_iff, exists_some_const,
        Option.some.injEq]
  | candAMethod m =>
    cases m with
    | none => simp [Action.apply, Rejects]
    | some m =>
      simp only [Action.apply, Rejects, onCands_none_iff, onAct_none_iff, setMethodA_none_iff,
        exists_mem_const, Option.some.injEq]
  | finalWMethod a m =>
    cases m with
    | none => simp [Action.apply, Rejects]
    | some m =>
      simp only [Action.apply, Rejects, onFinalW_none_iff _ hw, setMethodW_none_iff, ne_eq, reduceCtorEq,
        not_false_eq_true, true_and]
  | candWMethod a m =>
    cases m with
    | none => simp [Action.apply, Rejects]
    | some m =>
      simp only [Action.apply, Rejects, onCands_none_iff, onWts_none_iff, setMethodW_none_iff, ne_eq,
        reduceCtorEq, not_false_eq_true, true_and]
  | replace t f => simp [Action.apply, Rejects]

/-! ### Rejection does not depend on earlier settings -/

theorem BadW_congr {w w' : WObj} (h : SameKeys w w') (a : Option Attr) (kw : List (Param × Val)) :
    BadW w' a kw ↔ BadW w a kw := by
  cases a with
  | none => rfl
  | some a => simp only [BadW, h.resolve]

theorem NoAttr_congr {w w' : WObj} (h : SameKeys w w') (a : Option Attr) : NoAttr w' a ↔ NoAttr w a := by
  unfold NoAttr
  simp only [h.resolve]

theorem Evolve.exists_cand {n n' : Node B} {reqs} (h : Evolve n reqs n') {P : WObj → Prop}
    (hP : ∀ w w', SameKeys w w' → (P w' ↔ P w)) :
    (∃ c ∈ n'.cands, P c.wts) ↔ ∃ c ∈ n.cands, P c.wts := by
  constructor
  · rintro ⟨c', hc', hp⟩
    obtain ⟨i, hi, e⟩ := List.mem_iff_getElem.mp hc'
    have hi' : i < n.cands.length := by rw [← h.length]; exact hi
    obtain ⟨c'', f1, _, f2⟩ := h.cand i _ (List.getElem?_eq_getElem hi')
    rw [List.getElem?_eq_getElem hi, e] at f1
    have := Option.some.inj f1
    subst this
    exact ⟨_, List.getElem_mem hi', (hP _ _ f2.1).mp hp⟩
  · rintro ⟨c, hc, hp⟩
    obtain ⟨i, hi, e⟩ := List.mem_iff_getElem.mp hc
    obtain ⟨c', f1, _, f2⟩ := h.cand i c (by rw [List.getElem?_eq_getElem hi, e])
    exact ⟨c', List.mem_of_getElem? f1, (hP _ _ f2.1).mpr hp⟩

theorem Evolve.cands_ne {n n' : Node B} {reqs} (h : Evolve n reqs n') : n'.cands ≠ [] ↔ n.cands ≠ [] := by
  rw [← List.length_pos_iff, ← List.length_pos_iff, h.length]

theorem Evolve.finalWts {n n' : Node B} {reqs} (h : Evolve n reqs n') (hw : Well n) {P : WObj → Prop}
    (hP : ∀ w w', SameKeys w w' → (P w' ↔ P w)) :
    (∃ w, n'.finalWts = some w ∧ P w) ↔ ∃ w, n.finalWts = some w ∧ P w := by
  have ev := h.finalW
  unfold EvFW at ev
  unfold Node.finalWts
  cases hf : n.finalW with
  | unset => rw [hf] at ev; rw [show n'.finalW = .unset from ev]
  | own w =>
    rw [hf] at ev
    obtain ⟨w', e1, e2⟩ := ev
    rw [e1]
    simp [hP _ _ e2.1]
  | cand i =>
    rw [hf] at ev
    rw [show n'.finalW = .cand i from ev]
    have hi := hw.inW i hf
    obtain ⟨c', f1, _, f2⟩ := h.cand i _ (List.getElem?_eq_getElem hi)
    simp [f1, List.getElem?_eq_getElem hi, hP _ _ f2.1]

theorem Evolve.finalAct_ne {n n' : Node B} {reqs} (h : Evolve n reqs n') (hw : Well n) :
    n'.finalAct ≠ none ↔ n.finalAct ≠ none := by
  have ev := h.finalA
  unfold EvFA at ev
  unfold Node.finalAct
  cases hf : n.finalA with
  | unset => rw [hf] at ev; rw [show n'.finalA = .unset from ev]
  | own w =>
    rw [hf] at ev
    obtain ⟨w', e1, e2⟩ := ev
    rw [e1]
    simp
  | cand i =>
    rw [hf] at ev
    rw [show n'.finalA = .cand i from ev]
    have hi := hw.inA i hf
    obtain ⟨c', f1, _, f2⟩ := h.cand i _ (List.getElem?_eq_getElem hi)
    simp [f1, List.getElem?_eq_getElem hi]

theorem Rejects_congr {n n' : Node B} {reqs} (h : Evolve n reqs n') (hw : Well n) (A : Action B) :
    Rejects n' A ↔ Rejects n A := by
  cases A with
  | candW a kw => exact h.exists_cand fun w w' e => BadW_congr e a kw
  | finalW a kw => exact h.finalWts hw fun w w' e => BadW_congr e a kw
  | candA kw => simp only [Rejects, h.cands_ne]
  | finalA kw => simp only [Rejects, h.finalAct_ne hw]
  | paramsFn a act wts =>
    simp only [Rejects]
    rw [h.exists_cand (P := fun w => NoAttr w a) fun w w' e => NoAttr_congr e a]
  | finalAMethod m => simp only [Rejects, h.finalAct_ne hw]
  | candAMethod m => simp only [Rejects, h.cands_ne]
  | finalWMethod a m =>
    simp only [Rejects]
    rw [h.finalWts hw (P := fun w => NoAttr w a) fun w w' e => NoAttr_congr e a]
  | candWMethod a m =>
    simp only [Rejects]
    rw [h.exists_cand (P := fun w => NoAttr w a) fun w w' e => NoAttr_congr e a]
  | replace t f => rfl

theorem editNode_none_iff {rules : List (Rule B)} (hs : ∀ r ∈ rules, r.action.Setting) {n : Node B}
    (hw : Well n) :
    editNode rules n = none ↔ ∃ r ∈ rules, r.filter.Holds n ∧ Rejects n r.action := by
  induction rules generalizing n with
  | nil => simp [editNode]
  | cons r rs ih =>
    simp only [editNode]
    have hs' : ∀ x ∈ rs, x.action.Setting := fun x h => hs x (by simp [h])
    unfold Rule.onNode
    by_cases hr : r.filter.apply n = true
    · rw [if_pos hr]
      have hh := (apply_iff _ _).mp hr
      cases ha : r.action.apply n with
      | none =>
        simp only [Option.bind_none, true_iff]
        exact ⟨r, by simp, hh, (apply_none_iff hw).mp ha⟩
      | some n1 =>
        have ev := evolve_apply hw (hs r (by simp)) ha
        rw [Option.bind_some, ih hs' (hw.evolve ev)]
        have hn : ¬ Rejects n r.action := fun hc => by
          rw [(apply_none_iff hw).mpr hc] at ha; exact absurd ha (by simp)
        constructor
        · rintro ⟨x, hx, h1, h2⟩
          exact ⟨x, by simp [hx], (Holds_congr ev.name ev.type ev.functional).mp h1,
            (Rejects_congr ev hw _).mp h2⟩
        · rintro ⟨x, hx, h1, h2⟩
          rcases List.mem_cons.mp hx with e | e
          · subst e; exact absurd h2 hn
          · exact ⟨x, e, (Holds_congr ev.name ev.type ev.functional).mpr h1,
              (Rejects_congr ev hw _).mpr h2⟩
    · rw [if_neg hr, Option.bind_some, ih hs' hw]
      have hh : ¬ r.filter.Holds n := fun hc => hr ((apply_iff _ _).mpr hc)
      constructor
      · rintro ⟨x, hx, h⟩; exact ⟨x, by simp [hx], h⟩
      · rintro ⟨x, hx, h1, h2⟩
        rcases List.mem_cons.mp hx with e | e
        · subst e; exact absurd h1 hh
        · exact ⟨x, e, h1, h2⟩

theorem edit_none_iff (rules : List (Rule B)) (g : List (Node B)) :
    edit rules g = none ↔ ∃ n ∈ g, editNode rules n = none := by
  constructor
  · intro h
    by_contra hc
    push Not at hc
    have : ∃ g', g.mapM (editNode rules) = some g' := by
      cases hm : g.mapM (editNode rules) with
      | some g' => exact ⟨g', rfl⟩
      | none =>
        obtain ⟨n, hn, e⟩ := (mapM_none_iff _ _).mp hm
        exact absurd e (hc n hn)
    obtain ⟨g', hg⟩ := this
    rw [(edit_some_iff rules g g').mpr ((Common.mapM_some_iff _ _ _).mp hg)] at h
    exact absurd h (by simp)
  · rintro ⟨n, hn, e⟩
    cases h : edit rules g with
    | none => rfl
    | some g' =>
      have := (Common.mapM_some_iff _ _ _).mpr ((edit_some_iff rules g g').mp h)
      rw [(mapM_none_iff _ _).mpr ⟨n, hn, e⟩] at this
      exact absurd this (by simp)

end MCT.Editor
