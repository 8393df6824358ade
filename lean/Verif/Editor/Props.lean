/-
C113: edit rules change the requested settings of the selected layers, and nothing else.
-/
import Verif.Editor.Reject

namespace MCT.Editor
open MCT.Py MCT.Tpc MCT.Cand

variable {B : Type}

theorem editNode_untouched {rules : List (Rule B)} {n n' : Node B} (h : editNode rules n = some n')
    (hn : ∀ r ∈ rules, ¬ r.filter.Holds n) : n' = n := by
  induction rules with
  | nil => exact (Option.some.inj h).symm
  | cons r rs ih =>
    simp only [editNode] at h
    have : r.onNode n = some n := by
      unfold Rule.onNode
      rw [if_neg (fun hc => hn r (by simp) ((apply_iff _ _).mp hc))]
    rw [this, Option.bind_some] at h
    exact ih h fun x hx => hn x (by simp [hx])

theorem forall₂_and_left {α β : Type} {R : α → β → Prop} {P : α → Prop} {l : List α} {l' : List β}
    (h : List.Forall₂ R l l') (hp : ∀ a ∈ l, P a) : List.Forall₂ (fun a b => P a ∧ R a b) l l' := by
  induction h with
  | nil => exact .nil
  | cons h _ ih => exact .cons ⟨hp _ (by simp), h⟩ (ih fun a ha => hp a (by simp [ha]))

/-- **C113.** A layer that no rule selects is not changed, whatever the rules do. -/
theorem C113_untouched (rules : List (Rule B)) (g g' : List (Node B)) (h : edit rules g = some g') :
    List.Forall₂ (fun n n' => (∀ r ∈ rules, ¬ r.filter.Holds n) → n' = n) g g' :=
  ((edit_some_iff rules g g').mp h).imp fun _ _ e hn => editNode_untouched e hn

/-- **C113.** Rules that set parameters keep the layer itself, the number of its candidates, the names of
its weight attributes, and which final configurations it has. -/
theorem C113_kept (rules : List (Rule B)) (hs : ∀ r ∈ rules, r.action.Setting) (g g' : List (Node B))
    (hw : ∀ n ∈ g, Well n) (h : edit rules g = some g') :
    List.Forall₂ (fun n n' => n'.name = n.name ∧ n'.type = n.type ∧ n'.functional = n.functional ∧
      n'.kernel = n.kernel ∧ n'.body = n.body ∧ n'.cands.length = n.cands.length ∧
      (∀ i, n'.finalA = .cand i ↔ n.finalA = .cand i) ∧ (∀ i, n'.finalW = .cand i ↔ n.finalW = .cand i) ∧
      (n'.finalA = .unset ↔ n.finalA = .unset) ∧ (n'.finalW = .unset ↔ n.finalW = .unset) ∧ Well n') g g' := by
  refine (forall₂_and_left ((edit_some_iff rules g g').mp h) hw).imp ?_
  rintro n n' ⟨hn, e⟩
  have ev := evolve_editNode hs hn e
  refine ⟨ev.name, ev.type, ev.functional, ev.kernel, ev.body, ev.length, ev.finalA_cand, ev.finalW_cand,
    ?_, ?_, hn.evolve ev⟩
  · have := ev.finalA
    unfold EvFA at this
    split at this
    · rename_i o ho
      obtain ⟨o', e1, _⟩ := this
      rw [e1, ho]; simp
    · rw [this]
  · have := ev.finalW
    unfold EvFW at this
    split at this
    · rename_i o ho
      obtain ⟨o', e1, _⟩ := this
      rw [e1, ho]; simp
    · rw [this]

/-- **C113.** After the rules, every parameter of the activation configuration of every candidate has the
last value that a selecting rule requested for it, or its old value if there is none. -/
theorem C113_activation (rules : List (Rule B)) (hs : ∀ r ∈ rules, r.action.Setting) (g g' : List (Node B))
    (hw : ∀ n ∈ g, Well n) (h : edit rules g = some g') :
    List.Forall₂ (fun n n' => ∀ (i : Nat) (c : Cand), n.cands[i]? = some c → ∃ c', n'.cands[i]? = some c' ∧
      ∀ p, c'.act.get p = after .act c.act p (lastValue (hitsAct n i) p (requestsFor rules n))) g g' := by
  refine (forall₂_and_left ((edit_some_iff rules g g').mp h) hw).imp ?_
  rintro n n' ⟨hn, e⟩ i c hc
  obtain ⟨c', f1, f2, _⟩ := (evolve_editNode hs hn e).cand i c hc
  refine ⟨c', f1, fun p => ?_⟩
  rw [lastValue_sel]
  exact (runO_some f2).1 p

/-- **C113.** The same for the parameters of all weights of a candidate, and for those of each weight
attribute: a request names the attribute by a part of its name. -/
theorem C113_weights (rules : List (Rule B)) (hs : ∀ r ∈ rules, r.action.Setting) (g g' : List (Node B))
    (hw : ∀ n ∈ g, Well n) (h : edit rules g = some g') :
    List.Forall₂ (fun n n' => ∀ (i : Nat) (c : Cand), n.cands[i]? = some c → ∃ c', n'.cands[i]? = some c' ∧
      c'.wts.named.keys = c.wts.named.keys ∧ c'.wts.positional.keys = c.wts.positional.keys ∧
      (∀ p, c'.wts.fields.get p =
        after .wNode c.wts.fields p (lastValue (hitsWts n i) p (requestsFor rules n))) ∧
      ∀ k o, c.wts.attr k = some o → ∃ o', c'.wts.attr k = some o' ∧
        ∀ p, o'.get p = after .wAttr o p (lastValue (hitsAttr n i c.wts k) p (requestsFor rules n))) g g' := by
  refine (forall₂_and_left ((edit_some_iff rules g g').mp h) hw).imp ?_
  rintro n n' ⟨hn, e⟩ i c hc
  obtain ⟨c', f1, _, f2⟩ := (evolve_editNode hs hn e).cand i c hc
  refine ⟨c', f1, f2.1.1, f2.1.2, fun p => ?_, ?_⟩
  · rw [lastValue_sel]
    exact (runO_some f2.2.1).1 p
  · intro k o ho
    obtain ⟨o', e1, e2⟩ := f2.2.2 k o ho
    refine ⟨o', e1, fun p => ?_⟩
    rw [lastValue_sel]
    exact (runO_some e2).1 p

/-- **C113.** A final configuration that is an object of its own is changed by the requests for the final
configuration only, again to the last value requested. -/
theorem C113_final (rules : List (Rule B)) (hs : ∀ r ∈ rules, r.action.Setting) (g g' : List (Node B))
    (hw : ∀ n ∈ g, Well n) (h : edit rules g = some g') :
    List.Forall₂ (fun n n' =>
      (∀ o, n.finalA = .own o → ∃ o', n'.finalA = .own o' ∧
        ∀ p, o'.get p = after .act o p (lastValue hitsFinalAct p (requestsFor rules n))) ∧
      (∀ w, n.finalW = .own w → ∃ w', n'.finalW = .own w' ∧
        (∀ p, w'.fields.get p =
          after .wNode w.fields p (lastValue hitsFinalWts p (requestsFor rules n))) ∧
        ∀ k o, w.attr k = some o → ∃ o', w'.attr k = some o' ∧
          ∀ p, o'.get p = after .wAttr o p (lastValue (hitsFinalAttr w k) p (requestsFor rules n)))) g g' := by
  refine (forall₂_and_left ((edit_some_iff rules g g').mp h) hw).imp ?_
  rintro n n' ⟨hn, e⟩
  have ev := evolve_editNode hs hn e
  constructor
  · intro o ho
    have := ev.finalA
    unfold EvFA at this
    rw [ho] at this
    obtain ⟨o', e1, e2⟩ := this
    refine ⟨o', e1, fun p => ?_⟩
    rw [lastValue_sel]
    exact (runO_some e2).1 p
  · intro w hw
    have := ev.finalW
    unfold EvFW at this
    rw [hw] at this
    obtain ⟨w', e1, e2⟩ := this
    refine ⟨w', e1, fun p => ?_, ?_⟩
    · rw [lastValue_sel]
      exact (runO_some e2.2.1).1 p
    · intro k o ho
      obtain ⟨o', e3, e4⟩ := e2.2.2 k o ho
      refine ⟨o', e3, fun p => ?_⟩
      rw [lastValue_sel]
      exact (runO_some e4).1 p

/-- **C113.** The rules are rejected exactly if a rule selects a layer that cannot follow it: its weight
attribute is not found, a computed property would be set, or the method has no quantizer for activations.
A parameter that does not exist is not an error. -/
theorem C113_rejected (rules : List (Rule B)) (hs : ∀ r ∈ rules, r.action.Setting) (g : List (Node B))
    (hw : ∀ n ∈ g, Well n) :
    edit rules g = none ↔ ∃ n ∈ g, ∃ r ∈ rules, r.filter.Holds n ∧ Rejects n r.action := by
  rw [edit_none_iff]
  constructor
  · rintro ⟨n, hn, h⟩
    exact ⟨n, hn, (editNode_none_iff hs (hw n hn)).mp h⟩
  · rintro ⟨n, hn, h⟩
    exact ⟨n, hn, (editNode_none_iff hs (hw n hn)).mpr h⟩

/-- **C113.** A rule that replaces layers replaces the type and the content of the selected layers, and
changes no quantization setting. -/
theorem C113_replace (f : Filter) (t : Ty) (fn : B → Option Obj → B) (g g' : List (Node B))
    (h : edit [⟨f, .replace t fn⟩] g = some g') :
    List.Forall₂ (fun n n' => (f.Holds n → n' = { n with type := t, body := fn n.body n.finalAct }) ∧
      (¬ f.Holds n → n' = n)) g g' := by
  refine ((edit_some_iff _ g g').mp h).imp ?_
  intro n n' e
  simp only [editNode] at e
  unfold Rule.onNode at e
  dsimp only at e
  constructor
  · intro hf
    rw [if_pos ((apply_iff _ _).mpr hf)] at e
    exact (Option.some.inj e).symm
  · intro hf
    rw [if_neg (fun hc => hf ((apply_iff _ _).mp hc))] at e
    exact (Option.some.inj e).symm

/-! ### Both passes -/

/-- What may happen to the candidates between the passes: quantization parameters are computed. -/
structure Computed (c c' : Cand) : Prop where
  act : ∀ p, p ≠ .actParams → c'.act.get p = c.act.get p
  keys : SameKeys c.wts c'.wts
  fields : ∀ p, c'.wts.fields.get p = c.wts.fields.get p
  attr : ∀ k o, c.wts.attr k = some o → ∃ o', c'.wts.attr k = some o' ∧ ∀ p, p ≠ .wParams → o'.get p = o.get p

/-- Requests for the candidates. -/
def isCandA : Target → Bool
  | .candA => true
  | _ => false

/-- Requests for a weight attribute of the candidates. -/
def isCandAttr (w : WObj) (k : Attr) : Target → Bool
  | .candW (some a) => decide (w.resolve a = some k)
  | _ => false

/-- Requests for the activation. -/
def isAct : Target → Bool
  | .candA => true
  | .finalA => true
  | _ => false

/-- Requests for a weight attribute. -/
def isAttr (w : WObj) (k : Attr) : Target → Bool
  | .candW (some a) => decide (w.resolve a = some k)
  | .finalW (some a) => decide (w.resolve a = some k)
  | _ => false

theorem has_eq_get (o : Obj) (p : Param) : o.has p = (o.get p).isSome := by
  cases h : o.get p with
  | none =>
    rw [Dict.get_none_iff] at h
    rw [Option.isSome_none, Bool.eq_false_iff]
    exact fun hc => h ((Dict.has_iff o p).mp hc)
  | some v =>
    rw [Option.isSome_some, Dict.has_iff]
    exact has_of_get h

theorem hasAttr_of_get {c : Cls} {o o' : Obj} {p : Param} (h : o'.get p = o.get p) :
    hasAttr c o' p = hasAttr c o p := by
  unfold hasAttr
  rw [has_eq_get, has_eq_get, h]

theorem Computed.well {n : Node B} {cs : List Cand} (hw : Well n) (hl : List.Forall₂ Computed n.cands cs)
    (hA : n.finalA = .unset) (hW : n.finalW = .unset) : Well { n with cands := cs } := by
  have back : ∀ c' ∈ cs, ∃ c ∈ n.cands, Computed c c' := by
    intro c' hc'
    obtain ⟨i, hi, e⟩ := List.mem_iff_getElem.mp hc'
    have hi' : i < n.cands.length := by rw [hl.length_eq]; exact hi
    exact ⟨n.cands[i], List.getElem_mem hi', by
      have := List.Forall₂.get hl hi' hi
      simp only [List.get_eq_getElem] at this
      rw [← e]; exact this⟩
  refine ⟨?_, ?_, ?_, ?_, ?_, ?_⟩
  · intro c' hc'
    obtain ⟨c, hc, e⟩ := back c' hc'
    obtain ⟨f1, f2, f3⟩ := hw.acts c hc
    rw [has_eq_get] at f1 f2 f3
    refine ⟨?_, ?_, ?_⟩ <;> rw [has_eq_get, e.act _ (by simp)] <;> assumption
  · intro c' hc' k o' ho'
    obtain ⟨c, hc, e⟩ := back c' hc'
    obtain ⟨o, ho⟩ := attr_isSome_of_keys e.keys ho'
    obtain ⟨o'', e1, e2⟩ := e.attr k o ho
    rw [ho'] at e1
    have := Option.some.inj e1
    subst this
    obtain ⟨f1, f2, f3⟩ := hw.wts c hc k o ho
    rw [has_eq_get] at f1 f2 f3
    refine ⟨?_, ?_, ?_⟩ <;> rw [has_eq_get, e2 _ (by simp)] <;> assumption
  · intro o ho; exact absurd (hA.symm.trans ho) (by simp)
  · intro o ho; exact absurd (hW.symm.trans ho) (by simp)
  · intro o ho; exact absurd (hA.symm.trans ho) (by simp)
  · intro o ho; exact absurd (hW.symm.trans ho) (by simp)

/-- The nodes through the two passes. -/
theorem run_some {rules : List (Rule B)} {between : Node B → List Cand} {choice : Node B → Choice}
    {g g' : List (Node B)} (h : run rules between choice g = some g') :
    List.Forall₂ (fun n n' => ∃ n1 n3, editNode rules n = some n1 ∧
      (choice { n1 with cands := between n1 }).apply { n1 with cands := between n1 } = some n3 ∧
      editNode rules n3 = some n') g g' := by
  unfold run at h
  obtain ⟨g1, h1, h'⟩ := Option.bind_eq_some_iff.mp h
  obtain ⟨g2, h2, h3⟩ := Option.bind_eq_some_iff.mp h'
  rw [edit_some_iff] at h1 h3
  rw [Common.mapM_some_iff, List.forall₂_map_left_iff] at h2
  clear h h'
  induction h1 generalizing g2 g' with
  | nil => cases h2; cases h3; exact .nil
  | cons ha _ ih =>
    cases h2 with
    | cons hb hr =>
      cases h3 with
      | cons hc hs => exact .cons ⟨_, _, ha, hb, hc⟩ (ih _ hr hs)

theorem requestsFor_congr {rules : List (Rule B)} {n n' : Node B} (h1 : n'.name = n.name)
    (h2 : n'.type = n.type) (h3 : n'.functional = n.functional) :
    requestsFor rules n' = requestsFor rules n := by
  unfold requestsFor
  congr 1
  apply List.filter_congr
  intro x _
  rw [decide_eq_decide]
  exact Holds_congr h1 h2 h3

theorem sel_congr {hit hit' : Target → Bool} (h : ∀ t, hit t = hit' t) (reqs) : sel hit reqs = sel hit' reqs := by
  rw [funext h]

/-- Two lists of settings one after the other. -/
theorem after_after {c : Cls} {o o1 : Obj} {p : Param} {u v : Option Val}
    (h : o1.get p = after c o p u) (hh : hasAttr c o1 p = hasAttr c o p) :
    after c o1 p v = after c o p (v.orElse fun _ => u) := by
  cases v with
  | none => exact h
  | some v =>
    simp only [after, Option.orElse_some, hh]
    by_cases hp : hasAttr c o p = true
    · rw [if_pos hp, if_pos hp]
    · rw [if_neg hp, if_neg hp, h]
      cases u with
      | none => rfl
      | some u => simp only [after, if_neg hp]

/-- What both passes do to a node whose layers have one candidate each: hypotheses and intermediate
configurations. -/
theorem passes {rules : List (Rule B)} (hs : ∀ r ∈ rules, r.action.Setting) {between : Node B → List Cand}
    {n n1 : Node B} (hw : Well n) (hA : n.finalA = .unset) (hW : n.finalW = .unset)
    (hb : ∀ m : Node B, List.Forall₂ Computed m.cands (between m)) (h1 : editNode rules n = some n1) :
    Evolve n (requestsFor rules n) n1 ∧ n1.finalA = .unset ∧ n1.finalW = .unset ∧
      Well { n1 with cands := between n1 } := by
  have ev := evolve_editNode hs hw h1
  have a1 : n1.finalA = .unset := by
    have := ev.finalA
    unfold EvFA at this
    rw [hA] at this
    exact this
  have a2 : n1.finalW = .unset := by
    have := ev.finalW
    unfold EvFW at this
    rw [hW] at this
    exact this
  exact ⟨ev, a1, a2, Computed.well (hw.evolve ev) (hb n1) a1 a2⟩

/-- **C114, single precision.** If every layer has one candidate, every parameter of the final activation
configuration (other than the computed quantization parameters) has the last value requested for the final
configuration; otherwise the last value requested for the candidates; otherwise the value it had. -/
theorem C114_single_activation (rules : List (Rule B)) (hs : ∀ r ∈ rules, r.action.Setting)
    (between : Node B → List Cand) (hb : ∀ m : Node B, List.Forall₂ Computed m.cands (between m))
    (g g' : List (Node B)) (hw : ∀ n ∈ g, Well n ∧ n.finalA = .unset ∧ n.finalW = .unset)
    (h : run rules between (fun _ => .single) g = some g') :
    List.Forall₂ (fun n n' => ∃ c, n.cands = [c] ∧ ∀ o', n'.finalAct = some o' → ∀ p, p ≠ .actParams →
      o'.get p = after .act c.act p
        ((lastValue hitsFinalAct p (requestsFor rules n)).orElse fun _ =>
          lastValue isCandA p (requestsFor rules n))) g g' := by
  refine (forall₂_and_left (run_some h) hw).imp ?_
  rintro n n' ⟨⟨hn, hA, hW⟩, n1, n3, h1, h2, h3⟩
  obtain ⟨ev, a1, a2, w2⟩ := passes hs hn hA hW hb h1
  simp only [Choice.apply] at h2
  unfold setSingle at h2
  dsimp only at h2
  split at h2
  case h_2 => exact absurd h2 (by simp)
  rename_i c2 hc2
  have hlen : n1.cands.length = 1 := by rw [(hb n1).length_eq, hc2]; rfl
  have hlen' : n.cands.length = 1 := by rw [← ev.length]; exact hlen
  obtain ⟨c, hc⟩ := List.length_eq_one_iff.mp hlen'
  obtain ⟨c1, hc1⟩ := List.length_eq_one_iff.mp hlen
  refine ⟨c, hc, ?_⟩
  have hcc : Computed c1 c2 := by
    have := hb n1
    rw [hc1, hc2] at this
    cases this with | cons h _ => exact h
  obtain ⟨c1', f1, f2, _⟩ := ev.cand 0 c (by rw [hc]; rfl)
  rw [hc1] at f1
  have := Option.some.inj f1
  subst this
  obtain ⟨m, hm, e3⟩ := Option.map_eq_some_iff.mp h2
  intro o' ho' p hp
  have w3 : Well n3 := by
    rw [← e3]
    refine ⟨w2.acts, w2.wts, ?_, ?_, ?_, ?_⟩
    · intro o ho
      dsimp only at ho
      split at ho
      · exact absurd (a1.symm.trans ho) (by simp)
      · injection ho with ho
        subst ho
        exact w2.acts c2 (by simp [hc2])
    · intro w hw'
      dsimp only at hw'
      injection hw' with hw'
      subst hw'
      exact w2.wts c2 (by simp [hc2])
    · intro i hi
      dsimp only at hi
      split at hi
      · exact absurd (a1.symm.trans hi) (by simp)
      · exact absurd hi (by simp)
    · intro i hi
      exact absurd hi (by simp)
  have ev3 := evolve_editNode hs w3 h3
  have er : requestsFor rules n3 = requestsFor rules n := by
    rw [← e3]
    exact requestsFor_congr ev.name ev.type ev.functional
  rw [er] at ev3
  have f3 := ev3.finalA
  unfold EvFA at f3
  by_cases hmode : m = .mode .preserve
  · exfalso
    have : n3.finalA = .unset := by
      rw [← e3]; dsimp only; rw [if_pos hmode]; exact a1
    rw [this] at f3
    unfold Node.finalAct at ho'
    rw [show n'.finalA = .unset from f3] at ho'
    exact absurd ho' (by simp)
  · have : n3.finalA = .own c2.act := by
      rw [← e3]; dsimp only; rw [if_neg hmode]
    rw [this] at f3
    obtain ⟨o, e4, e5⟩ := f3
    have : o' = o := by
      unfold Node.finalAct at ho'
      rw [e4] at ho'
      exact (Option.some.inj ho').symm
    subst this
    rw [(runO_some e5).1 p, ← lastValue_sel]
    have g1 : c1.act.get p = after .act c.act p (lastValue isCandA p (requestsFor rules n)) := by
      rw [(runO_some f2).1 p, ← lastValue_sel]
      have : hitsAct n 0 = isCandA := by
        funext t
        cases t <;> simp [hitsAct, isCandA, hA]
      rw [this]
    have g2 : c2.act.get p = after .act c.act p (lastValue isCandA p (requestsFor rules n)) := by
      rw [hcc.act p hp, g1]
    refine after_after g2 ?_
    rw [hasAttr_of_get (hcc.act p hp), (runO_some f2).2.1 p]

/-- **C114, single precision.** The same for the parameters of each weight attribute. -/
theorem C114_single_weights (rules : List (Rule B)) (hs : ∀ r ∈ rules, r.action.Setting)
    (between : Node B → List Cand) (hb : ∀ m : Node B, List.Forall₂ Computed m.cands (between m))
    (g g' : List (Node B)) (hw : ∀ n ∈ g, Well n ∧ n.finalA = .unset ∧ n.finalW = .unset)
    (h : run rules between (fun _ => .single) g = some g') :
    List.Forall₂ (fun n n' => ∃ c w', n.cands = [c] ∧ n'.finalWts = some w' ∧
      ∀ k o, c.wts.attr k = some o → ∃ o', w'.attr k = some o' ∧ ∀ p, p ≠ .wParams →
      o'.get p = after .wAttr o p
        ((lastValue (hitsFinalAttr c.wts k) p (requestsFor rules n)).orElse fun _ =>
          lastValue (isCandAttr c.wts k) p (requestsFor rules n))) g g' := by
  refine (forall₂_and_left (run_some h) hw).imp ?_
  rintro n n' ⟨⟨hn, hA, hW⟩, n1, n3, h1, h2, h3⟩
  obtain ⟨ev, a1, a2, w2⟩ := passes hs hn hA hW hb h1
  simp only [Choice.apply] at h2
  unfold setSingle at h2
  dsimp only at h2
  split at h2
  case h_2 => exact absurd h2 (by simp)
  rename_i c2 hc2
  have hlen : n1.cands.length = 1 := by rw [(hb n1).length_eq, hc2]; rfl
  have hlen' : n.cands.length = 1 := by rw [← ev.length]; exact hlen
  obtain ⟨c, hc⟩ := List.length_eq_one_iff.mp hlen'
  obtain ⟨c1, hc1⟩ := List.length_eq_one_iff.mp hlen
  have hcc : Computed c1 c2 := by
    have := hb n1
    rw [hc1, hc2] at this
    cases this with | cons h _ => exact h
  obtain ⟨c1', f1, _, f2⟩ := ev.cand 0 c (by rw [hc]; rfl)
  rw [hc1] at f1
  have := Option.some.inj f1
  subst this
  obtain ⟨m, hm, e3⟩ := Option.map_eq_some_iff.mp h2
  have w3 : Well n3 := by
    rw [← e3]
    refine ⟨w2.acts, w2.wts, ?_, ?_, ?_, ?_⟩
    · intro o ho
      dsimp only at ho
      split at ho
      · exact absurd (a1.symm.trans ho) (by simp)
      · injection ho with ho
        subst ho
        exact w2.acts c2 (by simp [hc2])
    · intro w hw'
      dsimp only at hw'
      injection hw' with hw'
      subst hw'
      exact w2.wts c2 (by simp [hc2])
    · intro i hi
      dsimp only at hi
      split at hi
      · exact absurd (a1.symm.trans hi) (by simp)
      · exact absurd hi (by simp)
    · intro i hi
      exact absurd hi (by simp)
  have ev3 := evolve_editNode hs w3 h3
  have er : requestsFor rules n3 = requestsFor rules n := by
    rw [← e3]
    exact requestsFor_congr ev.name ev.type ev.functional
  rw [er] at ev3
  have f3 := ev3.finalW
  unfold EvFW at f3
  have : n3.finalW = .own c2.wts := by rw [← e3]
  rw [this] at f3
  obtain ⟨w', e4, e5⟩ := f3
  refine ⟨c, w', hc, by unfold Node.finalWts; rw [e4], ?_⟩
  intro k o ho
  obtain ⟨o1, i1, i2⟩ := f2.2.2 k o ho
  obtain ⟨o2, i3, i4⟩ := hcc.attr k o1 i1
  obtain ⟨o3, i5, i6⟩ := e5.2.2 k o2 i3
  refine ⟨o3, i5, fun p hp => ?_⟩
  have sk := f2.1.trans hcc.keys
  rw [hitsFinalAttr_congr sk] at i6
  rw [(runO_some i6).1 p, ← lastValue_sel]
  have g1 : o1.get p = after .wAttr o p (lastValue (isCandAttr c.wts k) p (requestsFor rules n)) := by
    rw [(runO_some i2).1 p, ← lastValue_sel]
    have : hitsAttr n 0 c.wts k = isCandAttr c.wts k := by
      funext t
      cases t with
      | candA => rfl
      | finalA => rfl
      | candW a => cases a <;> rfl
      | finalW a => cases a <;> simp [hitsAttr, isCandAttr, hW]
    rw [this]
  have g2 : o2.get p = after .wAttr o p (lastValue (isCandAttr c.wts k) p (requestsFor rules n)) := by
    rw [i4 p hp, g1]
  refine after_after g2 ?_
  rw [hasAttr_of_get (i4 p hp), (runO_some i2).2.1 p]

/-- Two requests for the same parameter, of which the second list contains those of the first. -/
theorem lastValue_orElse {hit hit' : Target → Bool} (h : ∀ t, hit t = true → hit' t = true) (p : Param)
    (reqs : List (Target × Param × Val)) :
    ((lastValue hit' p reqs).orElse fun _ => lastValue hit p reqs) = lastValue hit' p reqs := by
  cases h' : lastValue hit' p reqs with
  | some v => rfl
  | none =>
    simp only [Option.orElse_none]
    unfold lastValue at h' ⊢
    rw [Option.map_eq_none_iff, List.getLast?_eq_none_iff, List.filter_eq_nil_iff] at h'
    rw [Option.map_eq_none_iff, List.getLast?_eq_none_iff, List.filter_eq_nil_iff]
    intro q hq hc
    rw [Bool.and_eq_true] at hc
    exact h' q hq (by rw [Bool.and_eq_true]; exact ⟨h _ hc.1, hc.2⟩)

/-- **C114, mixed precision, partial.** For a layer whose candidate `i` is chosen by the search, every
parameter of the final activation configuration (other than the computed ones) has the last value requested
for the candidates or for the final configuration, in the order of the rules.  Missing: requests for the
final configuration do not take precedence as they do in single precision (`C114_order_violated`). -/
theorem C114_mixed_activation_partial (rules : List (Rule B)) (hs : ∀ r ∈ rules, r.action.Setting)
    (between : Node B → List Cand) (hb : ∀ m : Node B, List.Forall₂ Computed m.cands (between m))
    (index : Name → Nat) (g g' : List (Node B)) (hw : ∀ n ∈ g, Well n ∧ n.finalA = .unset ∧ n.finalW = .unset)
    (h : run rules between (fun n => .chosen (index n.name)) g = some g') :
    List.Forall₂ (fun n n' => ∃ c o', n.cands[index n.name]? = some c ∧ n'.finalAct = some o' ∧
      ∀ p, p ≠ .actParams → o'.get p = after .act c.act p (lastValue isAct p (requestsFor rules n))) g g' := by
  refine (forall₂_and_left (run_some h) hw).imp ?_
  rintro n n' ⟨⟨hn, hA, hW⟩, n1, n3, h1, h2, h3⟩
  obtain ⟨ev, a1, a2, w2⟩ := passes hs hn hA hW hb h1
  simp only [Choice.apply] at h2
  have hname : index n1.name = index n.name := by rw [ev.name]
  rw [hname] at h2
  generalize hidx : index n.name = i at h2 ⊢
  unfold setChosen at h2
  dsimp only at h2
  obtain ⟨m, _, h2⟩ := Option.bind_eq_some_iff.mp h2
  obtain ⟨ok, _, h2⟩ := Option.bind_eq_some_iff.mp h2
  split at h2
  case isFalse => exact absurd h2 (by simp)
  rename_i hok
  have hlt : i < (between n1).length := by
    rw [Bool.and_eq_true, decide_eq_true_eq] at hok
    exact hok.2
  have e3 := Option.some.inj h2
  have w3 : Well n3 := by
    rw [← e3]
    exact ⟨w2.acts, w2.wts, by simp, by simp,
      fun j hj => by injection hj with hj; rw [← hj]; exact hlt,
      fun j hj => by injection hj with hj; rw [← hj]; exact hlt⟩
  have ev3 := evolve_editNode hs w3 h3
  have er : requestsFor rules n3 = requestsFor rules n := by
    rw [← e3]
    exact requestsFor_congr ev.name ev.type ev.functional
  rw [er] at ev3
  have hlt1 : i < n1.cands.length := by rw [(hb n1).length_eq]; exact hlt
  have hlt0 : i < n.cands.length := by rw [← ev.length]; exact hlt1
  have hcc : Computed n1.cands[i] (between n1)[i] := List.Forall₂.get (hb n1) hlt1 hlt
  obtain ⟨c1, f1, f2, _⟩ := ev.cand i _ (List.getElem?_eq_getElem hlt0)
  rw [List.getElem?_eq_getElem hlt1] at f1
  have := Option.some.inj f1
  subst this
  obtain ⟨c4, k1, k2, _⟩ := ev3.cand i (between n1)[i] (by
    rw [← e3]; exact List.getElem?_eq_getElem hlt)
  have hfA : n'.finalA = .cand i := (ev3.finalA_cand i).mpr (by rw [← e3])
  refine ⟨n.cands[i], c4.act, List.getElem?_eq_getElem hlt0, ?_, ?_⟩
  · unfold Node.finalAct
    rw [hfA]
    simp [k1]
  · intro p hp
    have e1 : hitsAct n3 i = isAct := by
      rw [← e3]
      funext t
      cases t <;> simp [hitsAct, isAct]
    have e2 : hitsAct n i = isCandA := by
      funext t
      cases t <;> simp [hitsAct, isCandA, hA]
    rw [(runO_some k2).1 p, ← lastValue_sel, e1]
    have g1 := (runO_some f2).1 p
    rw [← lastValue_sel, e2] at g1
    have g2 := (hcc.act p hp).trans g1
    rw [after_after g2 (by rw [hasAttr_of_get (hcc.act p hp), (runO_some f2).2.1 p]),
      lastValue_orElse (fun t ht => by cases t <;> simp_all [isCandA, isAct])]

/-- **C114, mixed precision, partial.** The same for the parameters of each weight attribute.  Missing: as
above, the precedence of requests for the final configuration. -/
theorem C114_mixed_weights_partial (rules : List (Rule B)) (hs : ∀ r ∈ rules, r.action.Setting)
    (between : Node B → List Cand) (hb : ∀ m : Node B, List.Forall₂ Computed m.cands (between m))
    (index : Name → Nat) (g g' : List (Node B)) (hw : ∀ n ∈ g, Well n ∧ n.finalA = .unset ∧ n.finalW = .unset)
    (h : run rules between (fun n => .chosen (index n.name)) g = some g') :
    List.Forall₂ (fun n n' => ∃ c w', n.cands[index n.name]? = some c ∧ n'.finalWts = some w' ∧
      ∀ k o, c.wts.attr k = some o → ∃ o', w'.attr k = some o' ∧ ∀ p, p ≠ .wParams →
        o'.get p = after .wAttr o p (lastValue (isAttr c.wts k) p (requestsFor rules n))) g g' := by
  refine (forall₂_and_left (run_some h) hw).imp ?_
  rintro n n' ⟨⟨hn, hA, hW⟩, n1, n3, h1, h2, h3⟩
  obtain ⟨ev, a1, a2, w2⟩ := passes hs hn hA hW hb h1
  simp only [Choice.apply] at h2
  have hname : index n1.name = index n.name := by rw [ev.name]
  rw [hname] at h2
  generalize hidx : index n.name = i at h2 ⊢
  unfold setChosen at h2
  dsimp only at h2
  obtain ⟨m, _, h2⟩ := Option.bind_eq_some_iff.mp h2
  obtain ⟨ok, _, h2⟩ := Option.bind_eq_some_iff.mp h2
  split at h2
  case isFalse => exact absurd h2 (by simp)
  rename_i hok
  have hlt : i < (between n1).length := by
    rw [Bool.and_eq_true, decide_eq_true_eq] at hok
    exact hok.2
  have e3 := Option.some.inj h2
  have w3 : Well n3 := by
    rw [← e3]
    exact ⟨w2.acts, w2.wts, by simp, by simp,
      fun j hj => by injection hj with hj; rw [← hj]; exact hlt,
      fun j hj => by injection hj with hj; rw [← hj]; exact hlt⟩
  have ev3 := evolve_editNode hs w3 h3
  have er : requestsFor rules n3 = requestsFor rules n := by
    rw [← e3]
    exact requestsFor_congr ev.name ev.type ev.functional
  rw [er] at ev3
  have hlt1 : i < n1.cands.length := by rw [(hb n1).length_eq]; exact hlt
  have hlt0 : i < n.cands.length := by rw [← ev.length]; exact hlt1
  have hcc : Computed n1.cands[i] (between n1)[i] := List.Forall₂.get (hb n1) hlt1 hlt
  obtain ⟨c1, f1, _, f2⟩ := ev.cand i _ (List.getElem?_eq_getElem hlt0)
  rw [List.getElem?_eq_getElem hlt1] at f1
  have := Option.some.inj f1
  subst this
  obtain ⟨c4, k1, _, k2⟩ := ev3.cand i (between n1)[i] (by
    rw [← e3]; exact List.getElem?_eq_getElem hlt)
  have hfW : n'.finalW = .cand i := (ev3.finalW_cand i).mpr (by rw [← e3])
  refine ⟨n.cands[i], c4.wts, List.getElem?_eq_getElem hlt0, ?_, ?_⟩
  · unfold Node.finalWts
    rw [hfW]
    simp [k1]
  · intro k o ho
    obtain ⟨o1, i1, i2⟩ := f2.2.2 k o ho
    obtain ⟨o2, i3, i4⟩ := hcc.attr k o1 i1
    obtain ⟨o3, i5, i6⟩ := k2.2.2 k o2 i3
    refine ⟨o3, i5, fun p hp => ?_⟩
    have sk := f2.1.trans hcc.keys
    have e1 : hitsAttr n3 i (between n1)[i].wts k = isAttr n.cands[i].wts k := by
      rw [← e3]
      funext t
      cases t with
      | candA => rfl
      | finalA => rfl
      | candW a => cases a <;> simp [hitsAttr, isAttr, sk.resolve]
      | finalW a => cases a <;> simp [hitsAttr, isAttr, sk.resolve]
    have e2 : hitsAttr n i n.cands[i].wts k = isCandAttr n.cands[i].wts k := by
      funext t
      cases t with
      | candA => rfl
      | finalA => rfl
      | candW a => cases a <;> rfl
      | finalW a => cases a <;> simp [hitsAttr, isCandAttr, hW]
    rw [(runO_some i6).1 p, ← lastValue_sel, e1]
    have g1 := (runO_some i2).1 p
    rw [← lastValue_sel, e2] at g1
    have g2 := (i4 p hp).trans g1
    rw [after_after g2 (by rw [hasAttr_of_get (i4 p hp), (runO_some i2).2.1 p]),
      lastValue_orElse (fun t ht => by
        cases t with
        | candA => exact absurd ht (by simp [isCandAttr])
        | finalA => exact absurd ht (by simp [isCandAttr])
        | finalW a => exact absurd ht (by simp [isCandAttr])
        | candW a => cases a with
          | none => exact absurd ht (by simp [isCandAttr])
          | some a => exact ht)]

end MCT.Editor
