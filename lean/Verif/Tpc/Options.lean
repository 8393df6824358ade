/-
Editing quantization options (C44) and upgrading the schema (C45).
-/
import Verif.Tpc.Model

namespace MCT.TpcSpec
open MCT.Py MCT.Tpc

variable {κ : Type} [DecidableEq κ]

/-- Two configurations agree on everything but the attributes. -/
def SameButAttrs (c c' : OpCfg κ) : Prop :=
  c'.defaultAttr = c.defaultAttr ∧ c'.actMethod = c.actMethod ∧ c'.actBits = c.actBits ∧
  c'.inBits = c.inBits ∧ c'.enableAct = c.enableAct ∧ c'.preserving = c.preserving ∧
  c'.signedness = c.signedness ∧ c'.fixedScale = c.fixedScale ∧ c'.fixedZero = c.fixedZero ∧
  c'.simd = c.simd

/-- The settings of an attribute after an edit: the fields named in the edit take its values. -/
def editedAttr (c : AttrCfg) (e : AttrEdit) : AttrCfg :=
  let pick {α : Type} (new : Option α) (old : α) : α := match new with
    | some x => x
    | none => old
  ⟨pick e.method c.method, pick e.nBits c.nBits, pick e.perChannel c.perChannel,
    pick e.enabled c.enabled, pick e.lutBits c.lutBits⟩

/-- A field after an edit that may name it. -/
def Field {α : Type} (new : Option α) (old res : α) : Prop :=
  (∀ x, new = some x → res = x) ∧ (new = none → res = old)

/-- `c'` is `c` with the fields named in `e` set to their values, then with the edits `ed` of single
attributes applied to the attributes. -/
def OpEdited (ed : Dict κ AttrEdit) (e : OpEdit κ) (c c' : OpCfg κ) : Prop :=
  Field e.defaultAttr c.defaultAttr c'.defaultAttr ∧ Field e.actMethod c.actMethod c'.actMethod ∧
  Field e.actBits c.actBits c'.actBits ∧ Field e.inBits c.inBits c'.inBits ∧
  Field e.enableAct c.enableAct c'.enableAct ∧ Field e.preserving c.preserving c'.preserving ∧
  Field e.signedness c.signedness c'.signedness ∧ Field e.fixedScale c.fixedScale c'.fixedScale ∧
  Field e.fixedZero c.fixedZero c'.fixedZero ∧ Field e.simd c.simd c'.simd ∧
  ∃ attrs, Field e.attrs c.attrs attrs ∧ c'.attrs.keys = attrs.keys ∧
    (∀ a ae, ed.get a = some ae → c'.attrs.get a = (attrs.get a).map (fun x => editedAttr x ae)) ∧
    (∀ a, a ∉ ed.keys → c'.attrs.get a = attrs.get a)

/-- `c'` is `c` with the edit applied to the attributes selected by `sel`, and nothing else changed. -/
def EditedOnly (sel : κ → Prop) (e : AttrEdit) (c c' : OpCfg κ) : Prop :=
  SameButAttrs c c' ∧
  (∀ a, sel a → c'.attrs.get a = (c.attrs.get a).map (fun x => editedAttr x e)) ∧
  (∀ a, ¬ sel a → c'.attrs.get a = c.attrs.get a)

/-- The options edited configuration by configuration, with the base configuration edited alike. -/
def OptionsEdited (sel : κ → Prop) (e : AttrEdit) (q q' : Qco κ) : Prop :=
  List.Forall₂ (EditedOnly sel e) q.configs q'.configs ∧ EditedOnly sel e q.base q'.base ∧
  q'.base ∈ q'.configs

/-- Valid options: the validator of `QuantizationConfigOptions` accepts them. -/
def ValidQco (q : Qco κ) : Prop := q.base ∈ q.configs

/-- A valid TPC of schema 1: its constructors accept it. -/
def ValidV1 (t : TpcV1 κ) : Prop :=
  t.defaultQco.configs.length = 1 ∧
  (∀ l, t.opSets = some l → (l.map (·.name)).Nodup) ∧
  (∀ fs, t.fusing = some fs → ∀ f ∈ fs, 2 ≤ f.groups.length)

/-- The fields shared by the two schemas are the same. -/
def SameShared (t : TpcV1 κ) (t' : TpcV2 κ) : Prop :=
  t'.defaultQco = t.defaultQco ∧ t'.opSets = t.opSets ∧
  (t'.fusing.map (·.map (fun f => (f.groups, f.name)))) =
    (t.fusing.map (·.map (fun f => (f.groups, f.name)))) ∧
  t'.minor = t.minor ∧ t'.patch = t.patch ∧ t'.platform = t.platform ∧
  t'.addMetadata = t.addMetadata ∧ t'.name = t.name ∧ t'.simdPadding = t.simdPadding

end MCT.TpcSpec

namespace MCT.Tpc
open MCT.Py MCT.TpcSpec

set_option linter.unusedSectionVars false
set_option linter.unusedVariables false

variable {κ : Type} [DecidableEq κ]

theorem cloneAndEdit_edited (c : AttrCfg) (e : AttrEdit) : c.cloneAndEdit e = editedAttr c e := by
  unfold AttrCfg.cloneAndEdit editedAttr
  congr 1

theorem getD_field {α : Type} (new : Option α) (old : α) : Field new old (new.getD old) := by
  cases new <;> simp [Field]

theorem mkQco_valid {configs : List (OpCfg κ)} {base : Option (OpCfg κ)} {q : Qco κ}
    (h : mkQco configs base = some q) : ValidQco q ∧ q.configs = configs ∧
      (∀ b, base = some b → q.base = b) := by
  unfold mkQco at h
  cases configs with
  | nil => simp at h
  | cons c rest =>
    simp only at h
    cases base with
    | none =>
      simp only at h
      split at h
      · simp only [Option.some.injEq] at h
        subst h
        exact ⟨by simp [ValidQco], rfl, by simp⟩
      · simp at h
    | some b =>
      simp only at h
      split at h
      · rename_i hb
        simp only [Option.some.injEq] at h
        subst h
        exact ⟨hb, rfl, by simp⟩
      · simp at h

theorem withAttrs_attrs (c : OpCfg κ) (m : Dict κ AttrCfg) : (c.withAttrs m).attrs = m := by
  unfold OpCfg.withAttrs OpCfg.cloneAndEdit
  simp only [Option.getD_some]
  have : (fun p : κ × AttrCfg => (p.1, editAttr ([] : Dict κ AttrEdit) p.1 p.2)) = id := by
    funext p
    unfold editAttr
    rw [Dict.get_nil]
    rfl
  rw [this, List.map_id]

theorem withAttrs_same (c : OpCfg κ) (m : Dict κ AttrCfg) : SameButAttrs c (c.withAttrs m) := by
  refine ⟨rfl, rfl, rfl, rfl, rfl, rfl, rfl, rfl, rfl, rfl⟩

theorem remapConfigs_result {base : OpCfg κ} {f : OpCfg κ → Option (Dict κ AttrCfg)}
    {cs : List (OpCfg κ)} {nb : OpCfg κ} {r : List (OpCfg κ) × OpCfg κ}
    (h : remapConfigs base f cs nb = some r) :
    List.Forall₂ (fun c c' => ∃ m, f c = some m ∧ c' = c.withAttrs m) cs r.1 ∧
    (base ∈ cs → ∃ m, f base = some m ∧ r.2 = base.withAttrs m ∧ r.2 ∈ r.1) ∧
    (base ∉ cs → r.2 = nb) := by
  induction cs generalizing nb r with
  | nil =>
    simp only [remapConfigs, Option.some.injEq] at h
    subst h
    simp
  | cons c cs ih =>
    simp only [remapConfigs] at h
    cases hf : f c with
    | none => rw [hf] at h; simp at h
    | some m =>
      rw [hf] at h
      simp only at h
      cases hr : remapConfigs base f cs (if c = base then c.withAttrs m else nb) with
      | none => rw [hr] at h; simp at h
      | some r' =>
        rw [hr] at h
        obtain ⟨cs', b'⟩ := r'
        simp only [Option.some.injEq] at h
        subst h
        obtain ⟨h1, h2, h3⟩ := ih hr
        refine ⟨List.Forall₂.cons ⟨m, hf, rfl⟩ h1, ?_, ?_⟩
        · intro hb
          by_cases hin : base ∈ cs
          · obtain ⟨m', e1, e2, e3⟩ := h2 hin
            exact ⟨m', e1, e2, List.mem_cons_of_mem _ e3⟩
          · have hcb : c = base := by
              rcases List.mem_cons.mp hb with hb | hb
              · exact hb.symm
              · exact absurd hb hin
            have hb' := h3 hin
            rw [if_pos hcb] at hb'
            refine ⟨m, hcb ▸ hf, ?_, ?_⟩
            · simp only at hb' ⊢; rw [hb', hcb]
            · simp only at hb' ⊢; rw [hb']; exact List.mem_cons_self
        · intro hb
          have h4 : base ∉ cs := fun hh => hb (List.mem_cons_of_mem _ hh)
          have h5 : ¬ c = base := fun hh => hb (hh ▸ List.mem_cons_self)
          have := h3 h4
          rw [if_neg h5] at this
          exact this

theorem remapConfigs_fail {base : OpCfg κ} {f : OpCfg κ → Option (Dict κ AttrCfg)}
    {cs : List (OpCfg κ)} {nb : OpCfg κ} :
    remapConfigs base f cs nb = none ↔ ∃ c ∈ cs, f c = none := by
  induction cs generalizing nb with
  | nil => simp [remapConfigs]
  | cons c cs ih =>
    simp only [remapConfigs]
    cases hf : f c with
    | none => simp [hf]
    | some m =>
      simp only
      have := @ih (if c = base then c.withAttrs m else nb)
      cases hr : remapConfigs base f cs (if c = base then c.withAttrs m else nb) with
      | none =>
        rw [hr] at this
        simp only [true_iff] at this
        simp [hf, this]
      | some r =>
        rw [hr] at this
        simp only [reduceCtorEq, false_iff] at this
        simp [hf, this]

theorem mapM_items_result {qc : OpCfg κ} {e : AttrEdit} {l : List κ} {items : List (κ × AttrCfg)}
    (h : l.mapM (fun a => (qc.attrs.get a).map (fun c => (a, c.cloneAndEdit e))) = some items) :
    ∀ a, Dict.get items.reverse a =
      if a ∈ l then (qc.attrs.get a).map (fun x => x.cloneAndEdit e) else none := by
  induction l generalizing items with
  | nil =>
    simp only [List.mapM_nil, Option.pure_def, Option.some.injEq] at h
    subst h
    intro a; simp [Dict.get_nil]
  | cons b l ih =>
    rw [List.mapM_cons] at h
    simp only [Option.bind_eq_bind, Option.bind_eq_some_iff, Option.map_eq_some_iff,
      Option.pure_def, Option.some.injEq] at h
    obtain ⟨p, ⟨c, hc, hp⟩, items', hi, he⟩ := h
    subst he; subst hp
    intro a
    rw [List.reverse_cons, Dict.get_append, ih hi, Dict.get_cons, Dict.get_nil]
    by_cases hab : b = a
    · subst hab
      by_cases hin : b ∈ l
      · rw [if_pos hin, hc]; simp
      · rw [if_neg hin, hc]; simp
    · have hab' : ¬ a = b := fun hh => hab hh.symm
      simp only [List.mem_cons, hab', false_or, if_neg hab]
      split <;> cases hg : (qc.attrs.get a) <;> simp

theorem mapM_items_none {qc : OpCfg κ} {e : AttrEdit} {l : List κ} :
    l.mapM (fun a => (qc.attrs.get a).map (fun c => (a, c.cloneAndEdit e))) = none ↔
      ∃ a ∈ l, a ∉ qc.attrs.keys := by
  induction l with
  | nil => simp
  | cons b l ih =>
    rw [List.mapM_cons]
    cases hb : qc.attrs.get b with
    | none =>
      simp only [Option.map_none, Option.bind_eq_bind, Option.bind_none, true_iff]
      exact ⟨b, by simp, (Dict.get_none_iff _ _).mp hb⟩
    | some c =>
      have hin : b ∈ qc.attrs.keys := by
        by_contra hh
        rw [(Dict.get_none_iff _ _).mpr hh] at hb
        simp at hb
      cases hl : l.mapM (fun a => (qc.attrs.get a).map (fun c => (a, c.cloneAndEdit e))) with
      | none =>
        rw [hl] at ih
        simp only [true_iff] at ih
        obtain ⟨a, h1, h2⟩ := ih
        simp only [Option.map_some, Option.bind_eq_bind, Option.bind_some, Option.bind_none, true_iff]
        exact ⟨a, List.mem_cons_of_mem _ h1, h2⟩
      | some items =>
        rw [hl] at ih
        simp only [reduceCtorEq, false_iff] at ih
        simp only [Option.map_some, Option.bind_eq_bind, Option.bind_some, Option.pure_def,
          reduceCtorEq, false_iff]
        rintro ⟨a, h1, h2⟩
        rcases List.mem_cons.mp h1 with h1 | h1
        · exact h2 (h1 ▸ hin)
        · exact ih ⟨a, h1, h2⟩

theorem editedAttrs_result {qc : OpCfg κ} {attrs : Option (List κ)} {e : AttrEdit}
    {m : Dict κ AttrCfg} (h : editedAttrs qc attrs e = some m) :
    ∀ a, m.get a = if (∀ l, attrs = some l → a ∈ l)
      then (qc.attrs.get a).map (fun x => x.cloneAndEdit e) else none := by
  unfold editedAttrs at h
  simp only [Option.map_eq_some_iff] at h
  obtain ⟨items, h1, h2⟩ := h
  subst h2
  intro a
  rw [Dict.get_ofItems, mapM_items_result h1 a]
  cases attrs with
  | none =>
    simp only [reduceCtorEq, false_implies, implies_true, if_true]
    split
    · rfl
    · rename_i hh
      rw [(Dict.get_none_iff _ _).mpr hh]; rfl
  | some l => simp

/-- C44 (partial).  Editing some weight attributes applies the edit to exactly these attributes in every
configuration and in the base configuration, touches no other field, and keeps the base configuration
among the configurations — provided that the edited attributes are all the attributes of every
configuration, by default or by being listed.  Without the proviso this fails
(`C44_drops_others_violated`). -/
theorem C44_edit_weight_attribute_partial (q q' : Qco κ) (attrs : Option (List κ)) (e : AttrEdit)
    (hv : ValidQco q)
    (hall : ∀ l, attrs = some l → ∀ c ∈ q.configs, ∀ a ∈ c.attrs.keys, a ∈ l)
    (h : q.editWeightAttribute attrs e = some q') :
    OptionsEdited (fun a => ∀ l, attrs = some l → a ∈ l) e q q' := by
  unfold Qco.editWeightAttribute at h
  simp only [Option.map_eq_some_iff] at h
  obtain ⟨r, h1, h2⟩ := h
  subst h2
  obtain ⟨f1, f2, _⟩ := remapConfigs_result h1
  have key : ∀ c ∈ q.configs, ∀ m, editedAttrs c attrs e = some m →
      EditedOnly (fun a => ∀ l, attrs = some l → a ∈ l) e c (c.withAttrs m) := by
    intro c hc m hm
    have hr := editedAttrs_result hm
    refine ⟨withAttrs_same c m, ?_, ?_⟩
    · intro a ha
      rw [withAttrs_attrs, hr a, if_pos ha]
      simp only [cloneAndEdit_edited]
    · intro a ha
      rw [withAttrs_attrs, hr a, if_neg ha]
      symm
      rw [Dict.get_none_iff]
      intro hin
      exact ha (fun l hl => hall l hl c hc a hin)
  obtain ⟨m, g1, g2, g3⟩ := f2 hv
  refine ⟨?_, ?_, g3⟩
  · have : ∀ (cs cs' : List (OpCfg κ)), (∀ c ∈ cs, c ∈ q.configs) →
        List.Forall₂ (fun c c' => ∃ m, editedAttrs c attrs e = some m ∧ c' = c.withAttrs m) cs cs' →
        List.Forall₂ (EditedOnly (fun a => ∀ l, attrs = some l → a ∈ l) e) cs cs' := by
      intro cs cs' hin hf
      induction hf with
      | nil => exact List.Forall₂.nil
      | cons hh _ ih =>
        obtain ⟨m, e1, e2⟩ := hh
        subst e2
        exact List.Forall₂.cons (key _ (hin _ (by simp)) m e1)
          (ih (fun c hc => hin c (List.mem_cons_of_mem _ hc)))
    exact this _ _ (fun c hc => hc) f1
  · simp only
    rw [g2]
    exact key _ hv m g1

/-- C44.  The edit is refused exactly when a listed attribute is missing from some configuration. -/
theorem C44_missing_attribute (q : Qco κ) (attrs : Option (List κ)) (e : AttrEdit) :
    q.editWeightAttribute attrs e = none ↔
      ∃ c ∈ q.configs, ∃ l, attrs = some l ∧ ∃ a ∈ l, a ∉ c.attrs.keys := by
  unfold Qco.editWeightAttribute
  rw [Option.map_eq_none_iff, remapConfigs_fail]
  refine exists_congr fun c => and_congr_right fun _ => ?_
  unfold editedAttrs
  rw [Option.map_eq_none_iff, mapM_items_none]
  cases attrs with
  | none => simp
  | some l => simp

/-- C44.  In general an attribute that is not edited disappears from every configuration. -/
theorem C44_unedited_lost (q q' : Qco κ) (l : List κ) (e : AttrEdit)
    (h : q.editWeightAttribute (some l) e = some q') :
    ∀ c' ∈ q'.configs, ∀ a, a ∉ l → c'.attrs.get a = none := by
  unfold Qco.editWeightAttribute at h
  simp only [Option.map_eq_some_iff] at h
  obtain ⟨r, h1, h2⟩ := h
  subst h2
  obtain ⟨f1, _, _⟩ := remapConfigs_result h1
  intro c' hc' a ha
  have : ∀ (cs cs' : List (OpCfg κ)),
      List.Forall₂ (fun c c' => ∃ m, editedAttrs c (some l) e = some m ∧ c' = c.withAttrs m) cs cs' →
      c' ∈ cs' → c'.attrs.get a = none := by
    intro cs cs' hf hin
    induction hf with
    | nil => simp at hin
    | cons hh _ ih =>
      obtain ⟨m, e1, e2⟩ := hh
      rcases List.mem_cons.mp hin with hin | hin
      · subst hin
        rw [e2, withAttrs_attrs, editedAttrs_result e1 a]
        rw [if_neg]
        intro hh
        exact ha (hh l rfl)
      · exact ih hin
  exact this _ _ f1 hc'

/-- C44.  `OpQuantizationConfig.clone_and_edit` sets the fields it is given, applies each edit of
`attr_to_edit` to its own attribute, and keeps every other attribute and field. -/
theorem C44_op_edit (c : OpCfg κ) (ed : Dict κ AttrEdit) (e : OpEdit κ) :
    OpEdited ed e c (c.cloneAndEdit ed e) := by
  have hk : (c.cloneAndEdit ed e).attrs =
      (e.attrs.getD c.attrs).map (fun p => (p.1, editAttr ed p.1 p.2)) := rfl
  refine ⟨getD_field _ _, getD_field _ _, getD_field _ _, getD_field _ _, getD_field _ _,
    getD_field _ _, getD_field _ _, getD_field _ _, getD_field _ _, getD_field _ _,
    e.attrs.getD c.attrs, getD_field _ _, ?_, ?_, ?_⟩
  · rw [hk, Dict.keys_map_values]
  · intro a ae he
    rw [hk, Dict.get_map_values]
    unfold editAttr
    rw [he]
    simp only [cloneAndEdit_edited]
  · intro a ha
    rw [hk, Dict.get_map_values]
    unfold editAttr
    rw [(Dict.get_none_iff _ _).mpr ha]
    simp

/-- C44.  `QuantizationConfigOptions.clone_and_edit` edits every configuration and the base
configuration, and keeps the base configuration among the configurations. -/
theorem C44_clone_valid (q : Qco κ) (ed : Dict κ AttrEdit) (e : OpEdit κ) (hv : ValidQco q) :
    ValidQco (q.cloneAndEdit ed e) ∧
      List.Forall₂ (OpEdited ed e) q.configs (q.cloneAndEdit ed e).configs ∧
      OpEdited ed e q.base (q.cloneAndEdit ed e).base := by
  refine ⟨List.mem_map_of_mem hv, ?_, C44_op_edit _ _ _⟩
  show List.Forall₂ (OpEdited ed e) q.configs (q.configs.map (fun c => c.cloneAndEdit ed e))
  induction q.configs with
  | nil => exact List.Forall₂.nil
  | cons c cs ih => exact List.Forall₂.cons (C44_op_edit _ _ _) ih

/-- C44.  Renaming the attributes renames the keys of every configuration and of the base configuration,
touches nothing else, and keeps the base configuration among the configurations.  The configuration
under a name is that of the last attribute renamed to it. -/
theorem C44_rename (q : Qco κ) (m : Option (Dict κ κ)) (hv : ValidQco q) :
    List.Forall₂ (fun c c' => SameButAttrs c c' ∧ c'.attrs = mappedAttrs m c.attrs)
      q.configs (q.mapAttrKeys m).configs ∧
    SameButAttrs q.base (q.mapAttrKeys m).base ∧
    (q.mapAttrKeys m).base.attrs = mappedAttrs m q.base.attrs ∧
    ValidQco (q.mapAttrKeys m) := by
  unfold Qco.mapAttrKeys
  cases hr : remapConfigs q.base (fun qc => some (mappedAttrs m qc.attrs)) q.configs q.base with
  | none =>
    rw [remapConfigs_fail] at hr
    simp at hr
  | some r =>
    simp only
    obtain ⟨f1, f2, _⟩ := remapConfigs_result hr
    obtain ⟨mm, g1, g2, g3⟩ := f2 hv
    simp only [Option.some.injEq] at g1
    subst g1
    refine ⟨?_, ?_, ?_, g3⟩
    · refine f1.imp ?_
      rintro c c' ⟨mm, e1, e2⟩
      simp only [Option.some.injEq] at e1
      subst e1; subst e2
      exact ⟨withAttrs_same _ _, withAttrs_attrs _ _⟩
    · rw [g2]; exact withAttrs_same _ _
    · rw [g2, withAttrs_attrs]

/-- C44.  Under a renaming without collisions every attribute keeps its configuration under its new name. -/
theorem C44_rename_lookup (mm : Dict κ κ) (attrs : Dict κ AttrCfg)
    (hn : (attrs.keys.map (fun a => (mm.get a).getD a)).Nodup) (a : κ) (c : AttrCfg)
    (h : (a, c) ∈ attrs) :
    (mappedAttrs (some mm) attrs).get ((mm.get a).getD a) = some c := by
  unfold mappedAttrs
  simp only
  have hk : Dict.keys (attrs.map (fun p => ((mm.get p.1).getD p.1, p.2)))
      = attrs.keys.map (fun a => (mm.get a).getD a) := by
    simp [Dict.keys, Function.comp_def]
  rw [Dict.ofItems_of_nodup _ (by rw [hk]; exact hn)]
  apply Dict.get_of_mem (by rw [hk]; exact hn)
  exact List.mem_map.mpr ⟨(a, c), h, rfl⟩

/-! #### Concrete options -/

def kernelCfg : AttrCfg := ⟨.pot, 8, true, true, none⟩
def biasCfg : AttrCfg := ⟨.pot, 32, false, false, none⟩
def sampleCfg (bits : Nat) : OpCfg Nat :=
  ⟨biasCfg, [(0, kernelCfg), (1, biasCfg)], .pot, bits, [8, 16], true, false, .auto, none, none, some 32⟩
def sampleQco : Qco Nat := ⟨[sampleCfg 8, sampleCfg 16], sampleCfg 8⟩

theorem sampleQco_valid : ValidQco sampleQco := by
  unfold ValidQco
  decide +kernel

/-- C44.  Options are accepted exactly with a base configuration that is one of them, or with a single configuration and no
base configuration, which is then the base. -/
theorem C44_accepted (configs : List (OpCfg κ)) (base : Option (OpCfg κ)) (q : Qco κ) :
    mkQco configs base = some q ↔
      q.configs = configs ∧ ((base = some q.base ∧ q.base ∈ configs) ∨ (base = none ∧ configs = [q.base])) := by
  obtain ⟨qc, qb⟩ := q
  cases configs with
  | nil => simp [mkQco]
  | cons c rest =>
    cases base with
    | none =>
      cases rest with
      | nil => simp [mkQco, eq_comm]
      | cons d rest => simp [mkQco]
    | some b =>
      simp only [mkQco]
      by_cases hb : b ∈ c :: rest
      · rw [if_pos hb]
        simp only [Option.some.injEq, Qco.mk.injEq, reduceCtorEq, false_and, or_false]
        constructor
        · rintro ⟨rfl, rfl⟩; exact ⟨rfl, rfl, hb⟩
        · rintro ⟨rfl, rfl, _⟩; exact ⟨rfl, rfl⟩
      · rw [if_neg hb]
        simp only [reduceCtorEq, Option.some.injEq, false_and, or_false, false_iff]
        rintro ⟨_, rfl, h⟩
        exact hb h

/-- C44 is false: editing attribute `0` removes the configuration of attribute `1`. -/
theorem C44_drops_others_violated :
    ∃ q' : Qco Nat, sampleQco.editWeightAttribute (some [0]) { nBits := some 4 } = some q' ∧
      ValidQco sampleQco ∧ sampleQco.base.attrs.get 1 = some biasCfg ∧ q'.base.attrs.get 1 = none ∧
      ¬ OptionsEdited (fun a => a = 0) { nBits := some 4 } sampleQco q' := by
  refine ⟨_, rfl, sampleQco_valid, by decide +kernel, by decide +kernel, ?_⟩
  rintro ⟨_, h, _⟩
  have := h.2.2 1 (by decide)
  revert this
  decide +kernel

example : ∃ q', sampleQco.editWeightAttribute none { nBits := some 4 } = some q' ∧
    ValidQco sampleQco := ⟨_, rfl, sampleQco_valid⟩
example : ∃ q', sampleQco.editWeightAttribute (some [1, 0]) { nBits := some 4 } = some q' ∧
    (∀ l, some [1, 0] = some l → ∀ c ∈ sampleQco.configs, ∀ a ∈ c.attrs.keys, a ∈ l) := by
  refine ⟨_, rfl, ?_⟩
  intro l hl
  simp only [Option.some.injEq] at hl
  subst hl
  decide +kernel
example : sampleQco.editWeightAttribute (some [7]) {} = none := by decide +kernel
example : mkQco [sampleCfg 8, sampleCfg 16] (some (sampleCfg 8)) = some sampleQco := by decide +kernel

/-! ### The schema upgrade -/

/-- C45 (partial).  A valid TPC of schema 1 that lists its fusing patterns is upgraded; the fields shared
by the schemas are kept except the name and the SIMD padding flag; the new flag is off and every fused
operator gets the default base configuration without activation quantization.  It fails when the list of
fusing patterns is absent (`C45_no_fusing_violated`), and the name and the SIMD flag are lost
(`C45_name_violated`, `C45_simd_violated`). -/
theorem C45_upgrade_partial (t : TpcV1 κ) (hv : ValidV1 t) (fs : List (FusingV1 κ))
    (hf : t.fusing = some fs) :
    ∃ t', toCurrent (.v1 t) = some t' ∧
      SameShared { t with name := some defaultName, simdPadding := false } t' ∧
      t'.insertPreserving = false ∧
      ∀ fs', t'.fusing = some fs' → ∀ f ∈ fs', f.cfg = some { t.defaultQco.base with enableAct := false } := by
  obtain ⟨h1, h2, h3⟩ := hv
  have hok : (fs.all (fun f => fusingOk f.groups) && tpcOk t.defaultQco t.opSets) = true := by
    rw [Bool.and_eq_true]
    constructor
    · rw [List.all_eq_true]
      intro f hfm
      simpa [fusingOk] using h3 fs hf f hfm
    · unfold tpcOk
      cases ho : t.opSets with
      | none => simpa using h1
      | some l => simpa [h1] using h2 l ho
  simp only [toCurrent, v1ToV2, hf, hok, if_true]
  refine ⟨_, rfl, ?_, rfl, ?_⟩
  · refine ⟨rfl, rfl, ?_, rfl, rfl, rfl, rfl, rfl, rfl⟩
    simp [Function.comp_def]
  · intro fs' hfs' f hf'
    simp only [Option.some.injEq] at hfs'
    subst hfs'
    obtain ⟨g, _, hg⟩ := List.mem_map.mp hf'
    subst hg
    rfl

/-- C45.  The upgrade is the identity on TPCs of the current schema, and what it returns is always of the
current schema and satisfies the validators. -/
theorem C45_current (t : TpcV2 κ) : toCurrent (.v2 t) = some t := rfl

theorem C45_result_valid (t : TpcV1 κ) (t' : TpcV2 κ) (h : toCurrent (.v1 t) = some t') :
    t'.defaultQco.configs.length = 1 ∧
      (∀ l, t'.opSets = some l → (l.map (·.name)).Nodup) ∧
      ∀ fs, t'.fusing = some fs → ∀ f ∈ fs, 2 ≤ f.groups.length := by
  simp only [toCurrent, v1ToV2] at h
  cases hf : t.fusing with
  | none => rw [hf] at h; simp at h
  | some fs =>
    rw [hf] at h
    simp only at h
    split at h
    · rename_i hok
      rw [Bool.and_eq_true] at hok
      simp only [Option.some.injEq] at h
      subst h
      have h2 := hok.2
      unfold tpcOk at h2
      rw [Bool.and_eq_true] at h2
      refine ⟨by simpa using h2.1, ?_, ?_⟩
      · intro l hl
        have := h2.2
        simp only at hl
        rw [hl] at this
        simpa using this
      intro fs' hfs' f hf'
      simp only [Option.some.injEq] at hfs'
      subst hfs'
      obtain ⟨g, hg, hgf⟩ := List.mem_map.mp hf'
      subst hgf
      have := List.all_eq_true.mp hok.1 g hg
      simpa [fusingOk] using this
    · simp at h

def sampleV1 : TpcV1 Nat where
  defaultQco := ⟨[sampleCfg 8], sampleCfg 8⟩
  opSets := some [⟨['C'], some sampleQco⟩, ⟨['R'], none⟩]
  fusing := some [⟨[.set ⟨['C'], some sampleQco⟩, .set ⟨['R'], none⟩], ['C', '_', 'R']⟩]
  minor := some 1
  patch := some 0
  platform := some ['i']
  addMetadata := false
  name := some ['m']
  simdPadding := true

theorem sampleV1_valid : ValidV1 sampleV1 := by
  refine ⟨by decide +kernel, ?_, ?_⟩
  · intro l hl
    simp only [sampleV1, Option.some.injEq] at hl
    subst hl
    decide +kernel
  · intro fs hfs
    simp only [sampleV1, Option.some.injEq] at hfs
    subst hfs
    decide +kernel

/-- C45 is false: the upgrade loses the name of the TPC. -/
theorem C45_name_violated : ValidV1 sampleV1 ∧
    ∃ t', toCurrent (.v1 sampleV1) = some t' ∧ t'.name ≠ sampleV1.name :=
  ⟨sampleV1_valid, _, rfl, by decide +kernel⟩

/-- C45 is false: the upgrade clears the SIMD padding flag. -/
theorem C45_simd_violated : ValidV1 sampleV1 ∧
    ∃ t', toCurrent (.v1 sampleV1) = some t' ∧ sampleV1.simdPadding = true ∧ t'.simdPadding = false :=
  ⟨sampleV1_valid, _, rfl, by decide +kernel, by decide +kernel⟩

/-- C45 is false: a valid TPC that leaves its fusing patterns out cannot be upgraded. -/
theorem C45_no_fusing_violated : ∃ t : TpcV1 Nat, ValidV1 t ∧ toCurrent (.v1 t) = none := by
  refine ⟨{ sampleV1 with fusing := none }, ?_, by decide +kernel⟩
  obtain ⟨h1, h2, _⟩ := sampleV1_valid
  exact ⟨h1, h2, by simp⟩

example : ∃ fs, sampleV1.fusing = some fs := ⟨_, rfl⟩

end MCT.Tpc
