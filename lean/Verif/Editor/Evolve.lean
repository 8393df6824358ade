/-
How a list of edit rules changes a node (helper lemmas).
-/
import Verif.Editor.Lemmas
import Mathlib.Data.List.Infix

namespace MCT.Editor
open MCT.Py MCT.Tpc MCT.Cand

variable {B : Type}

/-- The same settings reach the activation configuration: no own final one, or one changed by the
settings for it. -/
def EvFA (n n' : Node B) (reqs : List (Target × Param × Val)) : Prop :=
  match n.finalA with
  | .own o => ∃ o', n'.finalA = .own o' ∧ runO .act (sel hitsFinalAct reqs) o = some o'
  | f => n'.finalA = f

def EvFW (n n' : Node B) (reqs : List (Target × Param × Val)) : Prop :=
  match n.finalW with
  | .own w => ∃ w', n'.finalW = .own w' ∧ EvW hitsFinalWts (hitsFinalAttr w) reqs w w'
  | f => n'.finalW = f

/-- The change of a node by a list of requests. -/
structure Evolve (n : Node B) (reqs : List (Target × Param × Val)) (n' : Node B) : Prop where
  name : n'.name = n.name
  type : n'.type = n.type
  functional : n'.functional = n.functional
  kernel : n'.kernel = n.kernel
  body : n'.body = n.body
  length : n'.cands.length = n.cands.length
  cand : ∀ i c, n.cands[i]? = some c → ∃ c', n'.cands[i]? = some c' ∧
    runO .act (sel (hitsAct n i) reqs) c.act = some c'.act ∧
    EvW (hitsWts n i) (hitsAttr n i c.wts) reqs c.wts c'.wts
  finalA : EvFA n n' reqs
  finalW : EvFW n n' reqs

theorem Evolve.refl {n : Node B} {reqs : List (Target × Param × Val)}
    (h1 : ∀ i, sel (hitsAct n i) reqs = []) (h2 : ∀ i, sel (hitsWts n i) reqs = [])
    (h3 : ∀ i w k, sel (hitsAttr n i w k) reqs = []) (h4 : ∀ o, n.finalA = .own o → sel hitsFinalAct reqs = [])
    (h5 : ∀ w, n.finalW = .own w → sel hitsFinalWts reqs = [] ∧ ∀ k, sel (hitsFinalAttr w k) reqs = []) :
    Evolve n reqs n := by
  refine ⟨rfl, rfl, rfl, rfl, rfl, rfl, ?_, ?_, ?_⟩
  · intro i c hc
    exact ⟨c, hc, by rw [h1]; rfl, EvW.of_none _ (h2 i) (h3 i _)⟩
  · unfold EvFA
    split
    · rename_i o ho
      exact ⟨o, ho, by rw [h4 o ho]; rfl⟩
    · rfl
  · unfold EvFW
    split
    · rename_i w hw
      exact ⟨w, hw, EvW.of_none _ (h5 w hw).1 (h5 w hw).2⟩
    · rfl

theorem Evolve.finalA_cand {n n' : Node B} {reqs} (h : Evolve n reqs n') (i : Nat) :
    n'.finalA = .cand i ↔ n.finalA = .cand i := by
  have := h.finalA
  unfold EvFA at this
  split at this
  · rename_i o ho
    obtain ⟨o', e, _⟩ := this
    rw [e, ho]; simp
  · rw [this]

theorem Evolve.finalW_cand {n n' : Node B} {reqs} (h : Evolve n reqs n') (i : Nat) :
    n'.finalW = .cand i ↔ n.finalW = .cand i := by
  have := h.finalW
  unfold EvFW at this
  split at this
  · rename_i o ho
    obtain ⟨o', e, _⟩ := this
    rw [e, ho]; simp
  · rw [this]

theorem hitsAct_congr {n n' : Node B} {reqs} (h : Evolve n reqs n') (i : Nat) :
    hitsAct n' i = hitsAct n i := by
  funext t
  cases t <;> simp [hitsAct, h.finalA_cand]

theorem hitsWts_congr {n n' : Node B} {reqs} (h : Evolve n reqs n') (i : Nat) :
    hitsWts n' i = hitsWts n i := by
  funext t
  cases t with
  | candA => rfl
  | finalA => rfl
  | candW a => cases a <;> rfl
  | finalW a => cases a <;> simp [hitsWts, h.finalW_cand]

theorem hitsAttr_congr {n n' : Node B} {reqs} (h : Evolve n reqs n') (i : Nat) {w w' : WObj}
    (hw : SameKeys w w') : hitsAttr n' i w' = hitsAttr n i w := by
  funext k t
  cases t with
  | candA => rfl
  | finalA => rfl
  | candW a => cases a <;> simp [hitsAttr, hw.resolve]
  | finalW a => cases a <;> simp [hitsAttr, hw.resolve, h.finalW_cand]

theorem hitsFinalAttr_congr {w w' : WObj} (hw : SameKeys w w') : hitsFinalAttr w' = hitsFinalAttr w := by
  funext k t
  cases t with
  | candA => rfl
  | finalA => rfl
  | candW a => rfl
  | finalW a => cases a <;> simp [hitsFinalAttr, hw.resolve]

theorem Evolve.trans {n n1 n2 : Node B} {r1 r2 : List (Target × Param × Val)} (h : Evolve n r1 n1)
    (h' : Evolve n1 r2 n2) : Evolve n (r1 ++ r2) n2 := by
  refine ⟨h'.name.trans h.name, h'.type.trans h.type, h'.functional.trans h.functional,
    h'.kernel.trans h.kernel, h'.body.trans h.body, h'.length.trans h.length, ?_, ?_, ?_⟩
  · intro i c hc
    obtain ⟨c1, e1, e2, e3⟩ := h.cand i c hc
    obtain ⟨c2, f1, f2, f3⟩ := h'.cand i c1 e1
    refine ⟨c2, f1, ?_, ?_⟩
    · rw [hitsAct_congr h] at f2
      rw [sel_append, runO_append, e2, Option.bind_some, f2]
    · rw [hitsWts_congr h, hitsAttr_congr h i e3.1] at f3
      exact e3.trans f3
  · have a := h.finalA
    have b := h'.finalA
    unfold EvFA at a b ⊢
    cases hf : n.finalA with
    | own o =>
      rw [hf] at a
      obtain ⟨o1, e1, e2⟩ := a
      rw [e1] at b
      obtain ⟨o2, f1, f2⟩ := b
      exact ⟨o2, f1, by rw [sel_append, runO_append, e2, Option.bind_some, f2]⟩
    | unset => rw [hf] at a; rw [show n1.finalA = .unset from a] at b; exact b
    | cand i => rw [hf] at a; rw [show n1.finalA = .cand i from a] at b; exact b
  · have a := h.finalW
    have b := h'.finalW
    unfold EvFW at a b ⊢
    cases hf : n.finalW with
    | own o =>
      rw [hf] at a
      obtain ⟨o1, e1, e2⟩ := a
      rw [e1] at b
      obtain ⟨o2, f1, f2⟩ := b
      rw [hitsFinalAttr_congr e2.1] at f2
      exact ⟨o2, f1, e2.trans f2⟩
    | unset => rw [hf] at a; rw [show n1.finalW = .unset from a] at b; exact b
    | cand i => rw [hf] at a; rw [show n1.finalW = .cand i from a] at b; exact b

/-! ### Well formed nodes stay well formed -/

theorem WellA.runO {kw : List (Param × Val)} {o o' : Obj} (h : WellA o) (hr : runO .act kw o = some o') :
    WellA o' :=
  ⟨(runO_some hr).2.2 _ h.1, (runO_some hr).2.2 _ h.2.1, (runO_some hr).2.2 _ h.2.2⟩

theorem attr_isSome_of_keys {w w' : WObj} (h : SameKeys w w') {k : Attr} {o' : Obj}
    (ho : w'.attr k = some o') : ∃ o, w.attr k = some o := by
  cases k with
  | pos i =>
    have := has_of_get (d := w'.positional) ho
    rw [h.2] at this
    exact get_of_has ((Dict.has_iff _ _).mpr this)
  | named s =>
    have := has_of_get (d := w'.named) ho
    rw [h.1] at this
    exact get_of_has ((Dict.has_iff _ _).mpr this)

theorem WellW.evW {hN : Target → Bool} {hA : Attr → Target → Bool} {reqs} {w w' : WObj} (h : WellW w)
    (he : EvW hN hA reqs w w') : WellW w' := by
  intro k o' ho'
  obtain ⟨o, ho⟩ := attr_isSome_of_keys he.1 ho'
  obtain ⟨o1, e1, e2⟩ := he.2.2 k o ho
  rw [ho'] at e1
  have := Option.some.inj e1
  subst this
  obtain ⟨f1, f2, f3⟩ := h k o ho
  exact ⟨(runO_some e2).2.2 _ f1, (runO_some e2).2.2 _ f2, (runO_some e2).2.2 _ f3⟩

theorem Well.evolve {n n' : Node B} {reqs} (h : Well n) (he : Evolve n reqs n') : Well n' := by
  have back : ∀ c' ∈ n'.cands, ∃ (i : Nat) (c : Cand), n.cands[i]? = some c ∧ n'.cands[i]? = some c' := by
    intro c' hc'
    obtain ⟨i, hi, e⟩ := List.mem_iff_getElem.mp hc'
    have hi' : i < n.cands.length := by rw [← he.length]; exact hi
    exact ⟨i, n.cands[i], List.getElem?_eq_getElem hi', by rw [List.getElem?_eq_getElem hi, e]⟩
  refine ⟨?_, ?_, ?_, ?_, ?_, ?_⟩
  · intro c' hc'
    obtain ⟨i, c, e1, e2⟩ := back c' hc'
    obtain ⟨c'', f1, f2, _⟩ := he.cand i c e1
    rw [e2] at f1
    have := Option.some.inj f1
    subst this
    exact (h.acts c (List.mem_of_getElem? e1)).runO f2
  · intro c' hc'
    obtain ⟨i, c, e1, e2⟩ := back c' hc'
    obtain ⟨c'', f1, _, f2⟩ := he.cand i c e1
    rw [e2] at f1
    have := Option.some.inj f1
    subst this
    exact (h.wts c (List.mem_of_getElem? e1)).evW f2
  · intro o' ho'
    have := he.finalA
    unfold EvFA at this
    split at this
    · rename_i o ho
      obtain ⟨o1, e1, e2⟩ := this
      rw [ho'] at e1
      injection e1 with e1
      subst e1
      exact (h.finalA o ho).runO e2
    · rename_i hne
      rw [ho'] at this
      exact absurd this.symm (hne o')
  · intro o' ho'
    have := he.finalW
    unfold EvFW at this
    split at this
    · rename_i o ho
      obtain ⟨o1, e1, e2⟩ := this
      rw [ho'] at e1
      injection e1 with e1
      subst e1
      exact (h.finalW o ho).evW e2
    · rename_i hne
      rw [ho'] at this
      exact absurd this.symm (hne o')
  · intro i hi
    rw [he.length]
    exact h.inA i ((he.finalA_cand i).mp hi)
  · intro i hi
    rw [he.length]
    exact h.inW i ((he.finalW_cand i).mp hi)

/-! ### The actions -/

theorem onCands_some {f : Cand → Option Cand} {n n' : Node B} (h : onCands f n = some n') :
    ∃ cs, n' = { n with cands := cs } ∧ cs.length = n.cands.length ∧
      ∀ (i : Nat) (c : Cand), n.cands[i]? = some c → ∃ c', cs[i]? = some c' ∧ f c = some c' := by
  unfold onCands at h
  obtain ⟨cs, h1, h2⟩ := Option.map_eq_some_iff.mp h
  rw [Common.mapM_some_iff] at h1
  refine ⟨cs, h2.symm, h1.length_eq.symm, ?_⟩
  intro i c hc
  obtain ⟨hi, e⟩ := List.getElem?_eq_some_iff.mp hc
  have hi' : i < cs.length := by rw [← h1.length_eq]; exact hi
  have := List.Forall₂.get h1 hi hi'
  exact ⟨cs[i], List.getElem?_eq_getElem hi', by rw [← e]; exact this⟩

/-- An action on all candidates. -/
theorem evolve_onCands {f : Cand → Option Cand} {n n' : Node B} {reqs : List (Target × Param × Val)}
    (h : onCands f n = some n')
    (hf : ∀ i c c', n.cands[i]? = some c → f c = some c' →
      runO .act (sel (hitsAct n i) reqs) c.act = some c'.act ∧
      EvW (hitsWts n i) (hitsAttr n i c.wts) reqs c.wts c'.wts)
    (h4 : sel hitsFinalAct reqs = []) (h5 : sel hitsFinalWts reqs = [])
    (h6 : ∀ w k, sel (hitsFinalAttr w k) reqs = []) : Evolve n reqs n' := by
  obtain ⟨cs, e, e1, e2⟩ := onCands_some h
  subst e
  refine ⟨rfl, rfl, rfl, rfl, rfl, e1, ?_, ?_, ?_⟩
  · intro i c hc
    obtain ⟨c', f1, f2⟩ := e2 i c hc
    exact ⟨c', f1, hf i c c' hc f2⟩
  · unfold EvFA
    split
    · rename_i o ho
      exact ⟨o, ho, by rw [h4]; rfl⟩
    · rfl
  · unfold EvFW
    split
    · rename_i w hw
      exact ⟨w, hw, EvW.of_none _ h5 (h6 w)⟩
    · rfl

/-- An action on the final activation configuration that makes the settings `kw`. -/
theorem evolve_onFinalA {f : Obj → Option Obj} {n n' : Node B} {kw : List (Param × Val)}
    (hw : Well n) (h : onFinalA f n = some n')
    (hf : ∀ o o', WellA o → f o = some o' → runO .act kw o = some o') :
    Evolve n (kw.map fun q => (.finalA, q)) n' := by
  have sW : ∀ i, sel (hitsWts n i) (kw.map fun q => (Target.finalA, q)) = [] := fun i => sel_none rfl kw
  have sA : ∀ i w k, sel (hitsAttr n i w k) (kw.map fun q => (Target.finalA, q)) = [] :=
    fun i w k => sel_none rfl kw
  have sF : sel hitsFinalWts (kw.map fun q => (Target.finalA, q)) = [] := sel_none rfl kw
  have sG : ∀ w k, sel (hitsFinalAttr w k) (kw.map fun q => (Target.finalA, q)) = [] :=
    fun w k => sel_none rfl kw
  unfold onFinalA at h
  cases hA : n.finalA with
  | unset =>
    rw [hA] at h
    have e := Option.some.inj h
    subst e
    refine Evolve.refl (fun i => sel_none (by simp [hitsAct, hA]) kw) sW sA ?_ (fun w _ => ⟨sF, sG w⟩)
    intro o ho
    rw [hA] at ho
    exact absurd ho (by simp)
  | own o =>
    rw [hA] at h
    obtain ⟨o', e1, e2⟩ := Option.map_eq_some_iff.mp h
    subst e2
    refine ⟨rfl, rfl, rfl, rfl, rfl, rfl, ?_, ?_, ?_⟩
    · intro i c hc
      refine ⟨c, hc, by rw [sel_none (by simp [hitsAct, hA])]; rfl, EvW.of_none _ (sW i) (sA i _)⟩
    · unfold EvFA
      rw [hA]
      exact ⟨o', rfl, by rw [sel_all rfl]; exact hf o o' (hw.finalA o hA) e1⟩
    · unfold EvFW
      split
      · rename_i w hW
        exact ⟨w, hW, EvW.of_none _ sF (sG w)⟩
      · rfl
  | cand i =>
    rw [hA] at h
    obtain ⟨c, e1, h⟩ := Option.bind_eq_some_iff.mp h
    obtain ⟨c', e2, e3⟩ := Option.map_eq_some_iff.mp h
    obtain ⟨o', e4, e5⟩ := Option.map_eq_some_iff.mp (show (f c.act).map _ = some c' from e2)
    subst e3
    refine ⟨rfl, rfl, rfl, rfl, rfl, by simp, ?_, ?_, ?_⟩
    · intro j d hd
      by_cases hj : j = i
      · subst hj
        rw [e1] at hd
        have := Option.some.inj hd
        subst this
        have hlt := (List.getElem?_eq_some_iff.mp e1).1
        refine ⟨c', by simp [hlt], ?_, ?_⟩
        · rw [sel_all (by simp [hitsAct, hA]), ← e5]
          exact hf _ _ (hw.acts c (List.mem_of_getElem? e1)) e4
        · rw [← e5]
          exact EvW.of_none _ (sW j) (sA j _)
      · refine ⟨d, by rw [List.getElem?_set_ne (fun h => hj h.symm)]; exact hd, ?_,
          EvW.of_none _ (sW j) (sA j _)⟩
        rw [sel_none (by simpa [hitsAct, hA] using fun h => hj h.symm)]
        rfl
    · unfold EvFA
      rw [hA]
    · unfold EvFW
      split
      · rename_i w hW
        exact ⟨w, hW, EvW.of_none _ sF (sG w)⟩
      · rfl

/-- An action on the final weights configuration that makes the settings `kw` of the attribute `a`. -/
theorem evolve_onFinalW {f : WObj → Option WObj} {n n' : Node B} {a : Option Attr}
    {kw : List (Param × Val)} (hw : Well n) (h : onFinalW f n = some n')
    (hf : ∀ o o', WellW o → f o = some o' → runW a kw o = some o') :
    Evolve n (kw.map fun q => (.finalW a, q)) n' := by
  have sA : ∀ i, sel (hitsAct n i) (kw.map fun q => (Target.finalW a, q)) = [] := fun i => sel_none rfl kw
  have sF : sel hitsFinalAct (kw.map fun q => (Target.finalW a, q)) = [] := sel_none rfl kw
  have fa : EvFA n n (kw.map fun q => (Target.finalW a, q)) := by
    unfold EvFA
    split
    · rename_i o ho
      exact ⟨o, ho, by rw [sF]; rfl⟩
    · rfl
  unfold onFinalW at h
  cases hA : n.finalW with
  | unset =>
    rw [hA] at h
    have e := Option.some.inj h
    subst e
    refine Evolve.refl sA (fun i => sel_none (by cases a <;> simp [hitsWts, hA]) kw)
      (fun i w k => sel_none (by cases a <;> simp [hitsAttr, hA]) kw) (fun _ _ => sF) ?_
    intro o ho
    rw [hA] at ho
    exact absurd ho (by simp)
  | own o =>
    rw [hA] at h
    obtain ⟨o', e1, e2⟩ := Option.map_eq_some_iff.mp h
    subst e2
    refine ⟨rfl, rfl, rfl, rfl, rfl, rfl, ?_, ?_, ?_⟩
    · intro i c hc
      refine ⟨c, hc, by rw [sA]; rfl, EvW.of_none _ ?_ ?_⟩
      · exact sel_none (by cases a <;> simp [hitsWts, hA]) kw
      · exact fun k => sel_none (by cases a <;> simp [hitsAttr, hA]) kw
    · exact fa
    · unfold EvFW
      rw [hA]
      refine ⟨o', rfl, EvW.of_runW kw (by cases a <;> rfl) ?_ (hf o o' (hw.finalW o hA) e1)⟩
      intro k
      cases a <;> simp [hitsFinalAttr]
  | cand i =>
    rw [hA] at h
    obtain ⟨c, e1, h⟩ := Option.bind_eq_some_iff.mp h
    obtain ⟨c', e2, e3⟩ := Option.map_eq_some_iff.mp h
    obtain ⟨o', e4, e5⟩ := Option.map_eq_some_iff.mp (show (f c.wts).map _ = some c' from e2)
    subst e3
    refine ⟨rfl, rfl, rfl, rfl, rfl, by simp, ?_, ?_, ?_⟩
    · intro j d hd
      by_cases hj : j = i
      · subst hj
        rw [e1] at hd
        have := Option.some.inj hd
        subst this
        have hlt := (List.getElem?_eq_some_iff.mp e1).1
        refine ⟨c', by simp [hlt], ?_, ?_⟩
        · rw [sA, ← e5]; rfl
        · rw [← e5]
          refine EvW.of_runW kw (by cases a <;> simp [hitsWts, hA]) ?_
            (hf _ _ (hw.wts c (List.mem_of_getElem? e1)) e4)
          intro k
          cases a <;> simp [hitsAttr, hA]
      · refine ⟨d, by rw [List.getElem?_set_ne (fun h => hj h.symm)]; exact hd, by rw [sA]; rfl, ?_⟩
        have hj' : ¬ i = j := fun h => hj h.symm
        exact EvW.of_none _ (sel_none (by cases a <;> simp [hitsWts, hA, hj']) kw)
          (fun k => sel_none (by cases a <;> simp [hitsAttr, hA, hj']) kw)
    · exact fa
    · unfold EvFW
      rw [hA]

theorem evolve_candA {f : Obj → Option Obj} {n n' : Node B} {kw : List (Param × Val)}
    (hw : Well n) (h : onCands (onAct f) n = some n')
    (hf : ∀ o o', WellA o → f o = some o' → runO .act kw o = some o') :
    Evolve n (kw.map fun q => (.candA, q)) n' := by
  refine evolve_onCands h ?_ (sel_none rfl kw) (sel_none rfl kw) (fun w k => sel_none rfl kw)
  intro i c c' hc hcc
  obtain ⟨o', e1, e2⟩ := Option.map_eq_some_iff.mp (show (f c.act).map _ = some c' from hcc)
  subst e2
  refine ⟨?_, EvW.of_none _ (sel_none rfl kw) fun k => sel_none rfl kw⟩
  rw [sel_all rfl]
  exact hf _ _ (hw.acts c (List.mem_of_getElem? hc)) e1

theorem evolve_candW {f : WObj → Option WObj} {n n' : Node B} {a : Option Attr} {kw : List (Param × Val)}
    (hw : Well n) (h : onCands (onWts f) n = some n')
    (hf : ∀ o o', WellW o → f o = some o' → runW a kw o = some o') :
    Evolve n (kw.map fun q => (.candW a, q)) n' := by
  refine evolve_onCands h ?_ (sel_none rfl kw) (sel_none rfl kw) (fun w k => sel_none rfl kw)
  intro i c c' hc hcc
  obtain ⟨o', e1, e2⟩ := Option.map_eq_some_iff.mp (show (f c.wts).map _ = some c' from hcc)
  subst e2
  refine ⟨by rw [sel_none rfl]; rfl, ?_⟩
  refine EvW.of_runW kw (by cases a <;> rfl) ?_ (hf _ _ (hw.wts c (List.mem_of_getElem? hc)) e1)
  intro k
  cases a <;> simp [hitsAttr]

theorem evolve_nil (n : Node B) : Evolve n [] n :=
  Evolve.refl (fun _ => rfl) (fun _ => rfl) (fun _ _ _ => rfl) (fun _ _ => rfl) (fun _ _ => ⟨rfl, fun _ => rfl⟩)

/-- The settings of `ChangeQuantizationParamFunction`. -/
def fnsA : Option Fn → List (Param × Val)
  | none => []
  | some f => [(.actParamsFn, .fn f)]

def fnsW : Option Fn → List (Param × Val)
  | none => []
  | some f => [(.wParamsFn, .fn f)]

/-- `setFns` is a change of the activation followed by a change of the weights. -/
theorem setFns_eq (a : Option Attr) (act wts : Option Fn) (c c' : Cand) (hwA : WellA c.act)
    (hwW : WellW c.wts) (h : setFns a act wts c = some c') :
    runO .act (fnsA act) c.act = some c'.act ∧ runW a (fnsW wts) c.wts = some c'.wts := by
  have key : ∀ f : Fn, runO .act [(.actParamsFn, .fn f)] c.act = some (c.act.set .actParamsFn (.fn f)) := by
    intro f
    simp only [runO]
    unfold setParam
    have : hasAttr .act c.act .actParamsFn = true := by unfold hasAttr; rw [hwA.2.1]; rfl
    rw [if_neg (by simp), if_pos this]
    simp [isProperty]
  have act' : runO .act (fnsA act) c.act = some c'.act := by
    unfold setFns at h
    dsimp only at h
    cases act with
    | none =>
      cases wts with
      | none => rw [← Option.some.inj h]; rfl
      | some f =>
        obtain ⟨w, _, h2⟩ := Option.map_eq_some_iff.mp h
        rw [← h2]; rfl
    | some g =>
      cases wts with
      | none => rw [← Option.some.inj h]; exact key g
      | some f =>
        obtain ⟨w, _, h2⟩ := Option.map_eq_some_iff.mp h
        rw [← h2]; exact key g
  refine ⟨act', ?_⟩
  unfold setFns at h
  dsimp only at h
  cases wts with
  | none =>
    have e := Option.some.inj h
    subst e
    rfl
  | some f =>
    obtain ⟨w, h1, h2⟩ := Option.map_eq_some_iff.mp h
    obtain ⟨b, h3, h4⟩ := Option.bind_eq_some_iff.mp h1
    subst h2
    subst h3
    obtain ⟨k, o, o', e1, e2, e3, e4⟩ := change_some h4
    have e := Option.some.inj e3
    simp only [fnsW, runW, WObj.setParam]
    unfold WObj.change setParam
    rw [e1, Option.bind_some, e2, Option.bind_some]
    have : hasAttr .wAttr o .wParamsFn = true := by unfold hasAttr; rw [(hwW k o e2).2.1]; rfl
    dsimp only
    rw [if_neg (by simp), if_pos this]
    simp [isProperty, e4, e]

theorem evolve_apply {A : Action B} {n n' : Node B} (hw : Well n) (hs : A.Setting)
    (h : A.apply n = some n') : Evolve n A.requests n' := by
  cases A with
  | candW a kw => exact evolve_candW hw h fun o o' _ e => by rw [← setAllW_eq]; exact e
  | finalW a kw => exact evolve_onFinalW hw h fun o o' _ e => by rw [← setAllW_eq]; exact e
  | candA kw => exact evolve_candA hw h fun o o' _ e => by rw [← setAllA_eq]; exact e
  | finalA kw => exact evolve_onFinalA hw h fun o o' _ e => by rw [← setAllA_eq]; exact e
  | paramsFn a act wts =>
    have e1 : Action.requests (.paramsFn a act wts : Action B) =
        ((fnsA act).map fun q => (.candA, q)) ++ ((fnsW wts).map fun q => (.candW a, q)) := by
      cases act <;> cases wts <;> rfl
    rw [e1]
    have sf : ∀ hit : Target → Bool, hit .candA = false → hit (.candW a) = false →
        sel hit (((fnsA act).map fun q => (.candA, q)) ++
          ((fnsW wts).map fun q => (.candW a, q))) = [] := by
      intro hit h1 h2
      rw [sel_append, sel_none h1, sel_none h2]; rfl
    refine evolve_onCands h ?_ (sf _ rfl rfl) (sf _ rfl rfl) (fun w k => sf _ rfl rfl)
    intro i c c' hc hcc
    obtain ⟨r1, r2⟩ := setFns_eq a act wts c c' (hw.acts c (List.mem_of_getElem? hc))
      (hw.wts c (List.mem_of_getElem? hc)) hcc
    refine ⟨?_, ?_⟩
    · rw [sel_append, sel_all rfl, sel_none rfl, List.append_nil]
      exact r1
    · refine EvW.trans (b := c.wts) (EvW.of_none _ (sel_none rfl _) fun k => sel_none rfl _) ?_
      refine EvW.of_runW _ (by cases a <;> rfl) ?_ r2
      intro k
      cases a <;> simp [hitsAttr]
  | finalAMethod m =>
    cases m with
    | none => exact (Option.some.inj h) ▸ evolve_nil n
    | some m => exact evolve_onFinalA hw h fun o o' hO e => setMethodA_runO hO e
  | candAMethod m =>
    cases m with
    | none => exact (Option.some.inj h) ▸ evolve_nil n
    | some m => exact evolve_candA hw h fun o o' hO e => setMethodA_runO hO e
  | finalWMethod a m =>
    cases m with
    | none => exact (Option.some.inj h) ▸ evolve_nil n
    | some m =>
      refine evolve_onFinalW hw h fun o o' hO e => ?_
      cases a with
      | none => exact absurd e (by simp [setMethodW])
      | some a => exact setMethodW_runW hO e
  | candWMethod a m =>
    cases m with
    | none => exact (Option.some.inj h) ▸ evolve_nil n
    | some m =>
      refine evolve_candW hw h fun o o' hO e => ?_
      cases a with
      | none => exact absurd e (by simp [setMethodW])
      | some a => exact setMethodW_runW hO e
  | replace t f => exact absurd hs id

/-! ### Filters and lists of rules -/

theorem hasSub_iff (s t : Name) : hasSub s t = true ↔ t <:+: s := by
  unfold hasSub
  rw [List.any_eq_true]
  constructor
  · rintro ⟨u, hu, h⟩
    rw [List.mem_tails] at hu
    rw [List.isPrefixOf_iff_prefix] at h
    exact h.isInfix.trans hu.isInfix
  · intro h
    obtain ⟨a, b, e⟩ := h
    refine ⟨t ++ b, ?_, ?_⟩
    · rw [List.mem_tails]
      exact ⟨a, by rw [← e, List.append_assoc]⟩
    · rw [List.isPrefixOf_iff_prefix]
      exact ⟨b, rfl⟩

theorem apply_iff (f : Filter) (n : Node B) : f.apply n = true ↔ f.Holds n := by
  induction f with
  | type t => simp [Filter.apply, Filter.Holds, isMatchType]
  | name s => simp [Filter.apply, Filter.Holds]
  | scope s => simp only [Filter.apply, Filter.Holds]; rw [← hasSub_iff]; simp
  | and a b iha ihb => simp [Filter.apply, Filter.Holds, iha, ihb]
  | or a b iha ihb => simp [Filter.apply, Filter.Holds, iha, ihb]
  | not a ih => simp only [Filter.apply, Filter.Holds]; rw [← ih]; simp
  | any => simp [Filter.apply, Filter.Holds]

theorem Holds_congr {f : Filter} {n n' : Node B} (h1 : n'.name = n.name) (h2 : n'.type = n.type)
    (h3 : n'.functional = n.functional) : f.Holds n' ↔ f.Holds n := by
  induction f with
  | type t => simp [Filter.Holds, h2, h3]
  | name s => simp [Filter.Holds, h1]
  | scope s => simp [Filter.Holds, h1]
  | and a b iha ihb => simp [Filter.Holds, iha, ihb]
  | or a b iha ihb => simp [Filter.Holds, iha, ihb]
  | not a ih => simp [Filter.Holds, ih]
  | any => simp [Filter.Holds]

/-- All rules on one node. -/
def editNode : List (Rule B) → Node B → Option (Node B)
  | [], n => some n
  | r :: rs, n => (r.onNode n).bind (editNode rs)

theorem edit_some_iff (rules : List (Rule B)) (g g' : List (Node B)) :
    edit rules g = some g' ↔ List.Forall₂ (fun n n' => editNode rules n = some n') g g' := by
  induction rules generalizing g g' with
  | nil =>
    simp only [edit, editNode, Option.some.injEq]
    exact (List.forall₂_eq_eq_eq ▸ Iff.rfl)
  | cons r rs ih =>
    simp only [edit, editNode]
    rw [Option.bind_eq_some_iff]
    constructor
    · rintro ⟨g1, h1, h2⟩
      rw [Common.mapM_some_iff] at h1
      rw [ih] at h2
      clear ih
      induction h1 generalizing g' with
      | nil => cases h2; exact .nil
      | cons ha _ ihl =>
        cases h2 with
        | cons hb hr => exact .cons (by rw [ha]; exact hb) (ihl _ hr)
    · intro h
      have : ∃ g1, List.Forall₂ (fun n n1 => r.onNode n = some n1) g g1 ∧
          List.Forall₂ (fun n1 n' => editNode rs n1 = some n') g1 g' := by
        clear ih
        induction h with
        | nil => exact ⟨[], .nil, .nil⟩
        | cons ha _ ihl =>
          obtain ⟨g1, k1, k2⟩ := ihl
          obtain ⟨x, e1, e2⟩ := Option.bind_eq_some_iff.mp ha
          exact ⟨x :: g1, .cons e1 k1, .cons e2 k2⟩
      obtain ⟨g1, k1, k2⟩ := this
      exact ⟨g1, (Common.mapM_some_iff _ _ _).mpr k1, (ih _ _).mpr k2⟩

theorem evolve_editNode {rules : List (Rule B)} (hs : ∀ r ∈ rules, r.action.Setting) {n n' : Node B}
    (hw : Well n) (h : editNode rules n = some n') : Evolve n (requestsFor rules n) n' := by
  induction rules generalizing n with
  | nil => exact (Option.some.inj h) ▸ evolve_nil n
  | cons r rs ih =>
    simp only [editNode] at h
    obtain ⟨n1, h1, h2⟩ := Option.bind_eq_some_iff.mp h
    unfold Rule.onNode at h1
    by_cases hr : r.filter.apply n = true
    · rw [if_pos hr] at h1
      have ev := evolve_apply hw (hs r (by simp)) h1
      have ev2 := ih (fun r' h' => hs r' (by simp [h'])) (hw.evolve ev) h2
      have er : requestsFor rs n1 = requestsFor rs n := by
        unfold requestsFor
        congr 1
        apply List.filter_congr
        intro x _
        rw [decide_eq_decide]
        exact Holds_congr ev.name ev.type ev.functional
      have : requestsFor (r :: rs) n = r.action.requests ++ requestsFor rs n := by
        unfold requestsFor
        rw [List.filter_cons_of_pos (by simpa using (apply_iff _ _).mp hr), List.flatMap_cons]
      rw [this, ← er]
      exact ev.trans ev2
    · rw [if_neg hr] at h1
      have e := Option.some.inj h1
      subst e
      have : requestsFor (r :: rs) n = requestsFor rs n := by
        unfold requestsFor
        rw [List.filter_cons_of_neg (by simpa using fun hc => hr ((apply_iff _ _).mpr hc))]
      rw [this]
      exact ih (fun r' h' => hs r' (by simp [h'])) hw h2

end MCT.Editor
