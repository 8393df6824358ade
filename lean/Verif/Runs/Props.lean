import Verif.Runs.Model

/-!
# Results do not depend on earlier calls (C135)
-/

namespace MCT.Runs

variable {I T G R : Type} [DecidableEq I]

/-- An earlier call searched bit widths with this configuration object: it was given a target that restricts
something, and was not bypassed. -/
def Searched (cfg : I → Cfg) (h : List (Call I T G R)) (i : I) : Prop :=
  ∃ f fa w t, Call.quantize f fa i w (some t) ∈ h ∧ w.restricted t = true ∧ (cfg i).hasMp = true ∧
    bypassed fa (cfg i) = false

/-- The framework of a call that sets the pointer. -/
def setsFw : Call I T G R → Option Fw
  | .quantize f _ _ _ _ => some f
  | .decorated f => some f
  | .xquant _ _ => none

theorem quantize_flag (w : World T G R) (f : Fw) (fa : Facade) (c : Cfg) (flag : Bool) (target : Option T) :
    (quantize w f fa c flag target).1 = (flag || (!bypassed fa c && c.hasMp && target.any w.restricted)) := by
  unfold quantize
  cases hb : bypassed fa c
  · cases target with
    | none => simp [newFlag]
    | some t =>
      cases ht : w.restricted t <;> cases hm : c.hasMp <;> simp [newFlag, ht, hm]
  · simp

theorem flags_append (cfg : I → Cfg) (h : List (Call I T G R)) (c : Call I T G R) :
    after cfg (h ++ [c]) = (step cfg (after cfg h) c).1 := by
  simp [after, List.foldl_append]

theorem flags_iff (cfg : I → Cfg) (h : List (Call I T G R)) (i : I) :
    (after cfg h).flags i = true ↔ Searched cfg h i := by
  induction h using List.reverseRecOn with
  | nil => simp [after, start, Searched]
  | append_singleton h c ih =>
    rw [flags_append]
    have mono : Searched cfg h i → Searched cfg (h ++ [c]) i := by
      rintro ⟨f, fa, w, t, hm, h1⟩
      exact ⟨f, fa, w, t, List.mem_append_left _ hm, h1⟩
    cases c with
    | quantize f fa j w target =>
      simp only [step, Function.update_apply]
      split
      · rename_i hij
        subst hij
        rw [quantize_flag]
        constructor
        · intro ht
          rcases (Bool.or_eq_true_iff).1 ht with ht | ht
          · exact mono (ih.1 ht)
          · simp only [Bool.and_eq_true, Bool.not_eq_true'] at ht
            obtain ⟨⟨hb, hm⟩, ha⟩ := ht
            cases target with
            | none => simp at ha
            | some t => exact ⟨f, fa, w, t, by simp, by simpa using ha, hm, hb⟩
        · rintro ⟨f', fa', w', t', hm, h1, h2, h3⟩
          rcases List.mem_append.1 hm with hm | hm
          · rw [ih.2 ⟨f', fa', w', t', hm, h1, h2, h3⟩]; rfl
          · simp only [List.mem_singleton, Call.quantize.injEq] at hm
            obtain ⟨rfl, rfl, -, rfl, rfl⟩ := hm
            simp [h1, h2, h3]
      · rename_i hij
        rw [ih]
        refine ⟨mono, ?_⟩
        rintro ⟨f', fa', w', t', hm, h1⟩
        rcases List.mem_append.1 hm with hm | hm
        · exact ⟨f', fa', w', t', hm, h1⟩
        · simp only [List.mem_singleton, Call.quantize.injEq] at hm
          exact absurd hm.2.2.1 hij
    | decorated f =>
      simp only [step]
      rw [ih]
      refine ⟨mono, ?_⟩
      rintro ⟨f', fa', w', t', hm, h1⟩
      rcases List.mem_append.1 hm with hm | hm
      · exact ⟨f', fa', w', t', hm, h1⟩
      · simp at hm
    | xquant f w =>
      simp only [step]
      rw [ih]
      refine ⟨mono, ?_⟩
      rintro ⟨f', fa', w', t', hm, h1⟩
      rcases List.mem_append.1 hm with hm | hm
      · exact ⟨f', fa', w', t', hm, h1⟩
      · simp at hm

theorem fw_after (cfg : I → Cfg) (h : List (Call I T G R)) :
    (after cfg h).fw = (h.filterMap setsFw).getLast? := by
  induction h using List.reverseRecOn with
  | nil => rfl
  | append_singleton h c ih =>
    rw [flags_append, List.filterMap_append]
    cases c <;> simp [step, setsFw, ih]

/-- C135 (partial).  After every history of calls, a quantization gives what it gives in a new process — the same
result or an exception in both — if it is given a target that restricts something, or if no earlier call
searched bit widths with the same configuration object. -/
theorem C135_history_partial (cfg : I → Cfg) (h : List (Call I T G R)) (f : Fw) (fa : Facade) (i : I)
    (w : World T G R) (target : Option T)
    (hok : (∃ t, target = some t ∧ w.restricted t = true) ∨ ¬Searched cfg h i) :
    outcome cfg h (.quantize f fa i w target) = outcome cfg [] (.quantize f fa i w target) := by
  have hstart : (after cfg ([] : List (Call I T G R))).flags i = false := rfl
  simp only [outcome, step]
  rcases hok with ⟨t, rfl, ht⟩ | hn
  · have : ∀ flag, (quantize w f fa (cfg i) flag (some t)).2 = (quantize w f fa (cfg i) false (some t)).2 := by
      intro flag
      unfold quantize
      split
      · rfl
      · simp only [newFlag, ht, if_true]
        cases (cfg i).hasMp <;> rfl
    rw [this, hstart]
  · rw [← flags_iff] at hn
    rw [Bool.eq_false_iff.2 hn, hstart]

/-- C135 (violated).  Once bit widths were searched with a configuration object, every later quantization with the
same object and without a target fails, unless it is bypassed; so does every one with a target that restricts
nothing, if no bit widths are predefined. -/
theorem C135_history_violated (cfg : I → Cfg) (h : List (Call I T G R)) (f : Fw) (fa : Facade) (i : I)
    (w : World T G R) (target : Option T) (hs : Searched cfg h i) (hb : bypassed fa (cfg i) = false)
    (ht : ∀ t, target = some t → w.restricted t = false)
    (hov : target = none ∨ (cfg i).overwrite = none) :
    outcome cfg h (.quantize f fa i w target) = none := by
  have hflag := (flags_iff cfg h i).2 hs
  obtain ⟨_, _, _, _, _, _, hm, _⟩ := hs
  have hnew : newFlag w (cfg i) true target = some true := by
    cases target with
    | none => rfl
    | some t => simp [newFlag, ht t rfl]
  simp only [outcome, step, hflag]
  unfold quantize
  rw [hb, hnew]
  simp only [Bool.false_eq_true, if_false, coreRun, mpEnabled, hm, Bool.and_true, if_true]
  cases w.prep f true with
  | none => rfl
  | some g =>
    simp only [Option.bind_some]
    have : bitWidths w (cfg i) target g = none := by
      unfold bitWidths
      rcases hov with rfl | hov
      · cases (cfg i).overwrite <;> rfl
      · rw [hov]
        cases target with
        | none => rfl
        | some t => simp [ht t rfl]
    rw [this]; rfl

/-- In a new process the same call quantizes with the base configuration of every layer. -/
theorem C135_new_process (cfg : I → Cfg) (f : Fw) (fa : Facade) (i : I) (w : World T G R) (target : Option T)
    (hb : bypassed fa (cfg i) = false) (ht : ∀ t, target = some t → w.restricted t = false) :
    outcome cfg ([] : List (Call I T G R)) (.quantize f fa i w target) =
      (w.prep f false).bind fun g => w.finish g false [] target := by
  have hnew : newFlag w (cfg i) false target = some false := by
    cases target with
    | none => rfl
    | some t => simp [newFlag, ht t rfl]
  have h0 : (after cfg ([] : List (Call I T G R))).flags i = false := rfl
  simp only [outcome, step, h0]
  unfold quantize
  rw [hb, hnew]
  simp [coreRun, mpEnabled]

/-- C135 (violated).  With predefined bit widths and a target that restricts nothing, the later call does not fail:
it applies the predefined bit widths, which in a new process it does not. -/
theorem C135_overwrite_violated (cfg : I → Cfg) (h : List (Call I T G R)) (f : Fw) (fa : Facade) (i : I)
    (w : World T G R) (t : T) (o : List Nat) (hs : Searched cfg h i) (hb : bypassed fa (cfg i) = false)
    (ht : w.restricted t = false) (hov : (cfg i).overwrite = some o) :
    outcome cfg h (.quantize f fa i w (some t)) =
      (w.prep f true).bind fun g => w.finish g true o (some t) := by
  have hflag := (flags_iff cfg h i).2 hs
  obtain ⟨_, _, _, _, _, _, hm, _⟩ := hs
  simp only [outcome, step, hflag]
  unfold quantize
  rw [hb]
  simp only [newFlag, ht, Bool.false_eq_true, if_false, coreRun, mpEnabled, hm, Bool.and_true, if_true,
    bitWidths, hov]
  rfl

/-- A model whose quantization gives the number of searched bit widths. -/
def demo : World Unit Unit Nat where
  restricted _ := true
  given := 100
  prep _ _ := some ()
  filter g _ := g
  search _ _ := some [1, 0, 2]
  finish _ b l _ := some (if b then l.length else 0)
  report f := match f with | .keras => 7 | .torch => 8

def demoCfg : Unit → Cfg := fun _ => ⟨true, none, false⟩

/-- C135 (violated).  Two calls without a configuration, the first with a target: they share the default object, and
the second fails, while it succeeds in a new process. -/
theorem C135_default_object_violated :
    outcome demoCfg [] (.quantize .torch .ptq () demo none) = some 0 ∧
    outcome demoCfg [] (.quantize .torch .ptq () demo (some ())) = some 3 ∧
    outcome demoCfg [.quantize .torch .ptq () demo (some ())] (.quantize .torch .ptq () demo none) = none := by
  decide

/-- The hypotheses of the theorems above are met. -/
example : Searched demoCfg [.quantize .torch .ptq () demo (some ())] () ∧ bypassed .ptq (demoCfg ()) = false :=
  ⟨⟨.torch, .ptq, demo, (), by simp, rfl, rfl, rfl⟩, rfl⟩

example : outcome demoCfg [.quantize .torch .ptq () demo (some ())] (.quantize .keras .qat () demo (some ())) =
    some 3 := by decide

/-- C135.  Which calls do not run the toolkit: post-training quantization (gradient based or not) with `bypass`
returns the model as given, after every history and with every target; quantization-aware training does not
examine `bypass`. -/
theorem C135_bypass (cfg : I → Cfg) (h : List (Call I T G R)) (f : Fw) (i : I) (w : World T G R)
    (target : Option T) (hb : (cfg i).bypass = true) :
    outcome cfg h (.quantize f .ptq i w target) = some w.given ∧
    outcome cfg h (.quantize f .gptq i w target) = some w.given ∧
    (¬Searched cfg h i → (∀ t, target = some t → w.restricted t = false) →
      outcome cfg h (.quantize f .qat i w target) = (w.prep f false).bind fun g => w.finish g false [] target) := by
  refine ⟨by simp [outcome, step, quantize, bypassed, hb], by simp [outcome, step, quantize, bypassed, hb], ?_⟩
  intro hn ht
  rw [C135_history_partial cfg h f .qat i w target (Or.inr hn), C135_new_process cfg f .qat i w target rfl ht]

/-- C135 (partial).  A report is made with the tables of the framework of the last decorated call: with its own if
the last such call was of its framework. -/
theorem C135_report_partial (cfg : I → Cfg) (h : List (Call I T G R)) (f : Fw) (w : World T G R)
    (hl : (h.filterMap setsFw).getLast? = some f) : outcome cfg h (.xquant f w) = some (w.report f) := by
  simp [outcome, step, fw_after, hl]

example : ([.decorated .keras, .decorated .torch, .xquant .torch demo] :
    List (Call Unit Unit Unit Nat)).filterMap setsFw = [.keras, .torch] := rfl

/-- C135 (violated).  A report made before any decorated call fails, and one made after a call of the other framework
uses the tables of the other framework. -/
theorem C135_report_violated (cfg : I → Cfg) (h : List (Call I T G R)) (f : Fw) (w : World T G R) :
    ((∀ c ∈ h, setsFw c = none) → outcome cfg h (.xquant f w) = none) ∧
    (∀ f', (h.filterMap setsFw).getLast? = some f' → outcome cfg h (.xquant f w) = some (w.report f')) := by
  constructor
  · intro hn
    have : h.filterMap setsFw = [] := List.filterMap_eq_nil_iff.2 hn
    simp [outcome, step, fw_after, this]
  · intro f' hl
    simp [outcome, step, fw_after, hl]

/-- C135.  Quantization always works with the tables of its own framework, whatever was called before. -/
theorem C135_own_tables (cfg : I → Cfg) (h : List (Call I T G R)) (f : Fw) (fa : Facade) (i : I)
    (w w' : World T G R) (target : Option T)
    (hw : w' = { w with prep := fun f' b => if f' = f then w.prep f b else none }) :
    outcome cfg h (.quantize f fa i w target) = outcome cfg h (.quantize f fa i w' target) := by
  subst hw
  simp only [outcome, step, quantize, newFlag, coreRun, bitWidths, if_true]

end MCT.Runs
