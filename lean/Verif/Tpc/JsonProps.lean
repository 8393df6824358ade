/-
Saved target platform capabilities are loaded unchanged (C137).
-/
import Verif.Tpc.Json

namespace MCT.Tpc
open MCT.Py

/-! ### What the constructors accept -/

/-- `PositiveInt` bits. -/
def GoodAttr (c : AttrCfg) : Prop := 0 < c.nBits

/-- Attribute names are keys of a dictionary. -/
def GoodOp (c : OpCfg Name) : Prop :=
  GoodAttr c.defaultAttr ∧ (∀ p ∈ c.attrs, GoodAttr p.2) ∧ (c.attrs.map (·.1)).Nodup

def GoodQco (q : Qco Name) : Prop := q.base ∈ q.configs ∧ ∀ c ∈ q.configs, GoodOp c

def GoodSet (s : OpSet Name) : Prop := ∀ q, s.qco = some q → GoodQco q

def GoodGroup : OpGroup Name → Prop
  | .set s => GoodSet s
  | .group _ l => l ≠ [] ∧ ∀ s ∈ l, GoodSet s

/-- The parts both schemas share. -/
def GoodParts (d : Qco Name) (sets : Option (List (OpSet Name))) : Prop :=
  GoodQco d ∧ d.configs.length = 1 ∧
    ∀ l, sets = some l → (∀ s ∈ l, GoodSet s) ∧ (l.map (·.name)).Nodup

/-- A TPC of schema 2 that was built by its constructors. -/
def GoodV2 (t : TpcV2 Name) : Prop :=
  GoodParts t.defaultQco t.opSets ∧
  ∀ fs, t.fusing = some fs → ∀ f ∈ fs, 2 ≤ f.groups.length ∧ (∀ g ∈ f.groups, GoodGroup g) ∧
    ∀ c, f.cfg = some c → GoodOp c

/-- A TPC of schema 1 that was built by its constructors. -/
def GoodV1 (t : TpcV1 Name) : Prop :=
  GoodParts t.defaultQco t.opSets ∧
  ∀ fs, t.fusing = some fs → ∀ f ∈ fs, 2 ≤ f.groups.length ∧ ∀ g ∈ f.groups, GoodGroup g

/-! ### Reading what was written -/

theorem mapM_map {α β : Type} (dump : α → β) (p : β → Option α) (l : List α) (h : ∀ a ∈ l, p (dump a) = some a) :
    (l.map dump).mapM p = some l := by
  induction l with
  | nil => rfl
  | cons a l ih =>
    rw [List.map_cons, List.mapM_cons, h a (List.mem_cons_self ..), ih fun b hb => h b (List.mem_cons_of_mem _ hb)]
    rfl

theorem toNat_nat (n : Nat) : (J.nat n).toNat = some n := by
  simp [J.toNat, J.nat, J.toInt]

theorem toInt_int (z : Int) : (J.int z).toInt = some z := by
  simp [J.toInt, J.int]

theorem toMethod_code (m : Method) : (J.nat m.code).toMethod = some m := by
  unfold J.toMethod
  rw [toNat_nat]
  cases m <;> rfl

theorem toSignedness_code (s : Signedness) : (J.nat s.code).toSignedness = some s := by
  unfold J.toSignedness
  rw [toNat_nat]
  cases s <;> rfl

theorem toPos_nat {n : Nat} (h : 0 < n) : (J.nat n).toPos = some n := by
  unfold J.toPos
  rw [toNat_nat]
  simp [h]

theorem nullable_opt {α : Type} (f : α → J) (p : J → Option α) (hf : ∀ a, f a ≠ .null) (o : Option α)
    (h : ∀ a, o = some a → p (f a) = some a) : J.nullable p (J.opt f o) = some o := by
  cases o with
  | none => rfl
  | some a =>
    have h1 := h a rfl
    have h2 := hf a
    simp only [J.opt]
    cases hj : f a with
    | null => exact absurd hj h2
    | _ => rw [hj] at h1; simp [J.nullable, h1]

theorem nat_ne_null (n : Nat) : J.nat n ≠ .null := by simp [J.nat]

theorem parseAttr_dump {c : AttrCfg} (h : GoodAttr c) : parseAttr c.dump = some c := by
  have h1 := nullable_opt J.nat J.toNat nat_ne_null c.lutBits fun a _ => toNat_nat a
  simp [parseAttr, AttrCfg.dump, J.dfl, J.optF, J.get, Dict.get_cons, toMethod_code, toPos_nat h, J.toBool, h1]

theorem parseAttrs_dump (d : Dict Name AttrCfg) (h : ∀ p ∈ d, GoodAttr p.2) (hn : (d.map (·.1)).Nodup) :
    parseAttrs (.obj (d.map fun p => (.attr p.1, p.2.dump))) = some d := by
  unfold parseAttrs
  simp only
  rw [mapM_map (fun p : Name × AttrCfg => (Key.attr p.1, p.2.dump)) parseAttrItem d
    (fun p hp => by simp [parseAttrItem, parseAttr_dump (h p hp)])]
  simp only [Option.map_some, Option.some.injEq]
  exact Dict.ofItems_of_nodup d hn

theorem toList_dump {α : Type} (dump : α → J) (p : J → Option α) (l : List α) (h : ∀ a ∈ l, p (dump a) = some a) :
    J.toList p (.arr (l.map dump)) = some l := mapM_map dump p l h

theorem parseOp_dump {c : OpCfg Name} (h : GoodOp c) : parseOp c.dump = some c := by
  have h1 := nullable_opt J.nat J.toNat nat_ne_null c.simd fun a _ => toNat_nat a
  have h2 := nullable_opt J.num J.toRat (fun a => by simp) c.fixedScale fun a _ => rfl
  have h3 := nullable_opt J.int J.toInt (fun a => by simp [J.int]) c.fixedZero fun a _ => toInt_int a
  have h4 : parseInBits (.arr (c.inBits.map .nat)) = some c.inBits :=
    toList_dump J.nat J.toNat c.inBits fun a _ => toNat_nat a
  have h5 := parseAttrs_dump c.attrs h.2.1 h.2.2
  simp [parseOp, OpCfg.dump, J.dfl, J.optF, J.req, J.get, Dict.get_cons, toMethod_code, toSignedness_code, J.toBool,
    parseAttr_dump h.1, toNat_nat, h1, h2, h3, h4, h5]

theorem parseQco_dump {q : Qco Name} (h : GoodQco q) : parseQco q.dump = some q := by
  have h1 := toList_dump OpCfg.dump parseOp q.configs fun c hc => parseOp_dump (h.2 c hc)
  have h2 := parseOp_dump (h.2 _ h.1)
  have h3 : J.nullable parseOp q.base.dump = some (some q.base) :=
    nullable_opt OpCfg.dump parseOp (fun a => by simp [OpCfg.dump]) (some q.base) fun a ha => by
      rw [← Option.some.inj ha]; exact h2
  simp only [parseQco, Qco.dump, J.req, J.optF, J.dfl, J.get, Dict.get_cons, if_true, Key.field.injEq, reduceCtorEq,
    if_false, Option.bind_some, h1, h3]
  obtain ⟨cs, b⟩ := q
  have hb := h.1
  unfold mkQco
  cases cs with
  | nil => simp at hb
  | cons c r => simp only at hb ⊢; rw [if_pos hb]

theorem parseSet_dump {s : OpSet Name} (h : GoodSet s) : parseSet s.dump = some s := by
  have h1 := nullable_opt Qco.dump parseQco (fun a => by simp [Qco.dump]) s.qco fun q hq => parseQco_dump (h q hq)
  simp [parseSet, OpSet.dump, J.req, J.optF, J.dfl, J.get, Dict.get_cons, J.toStr, h1]

theorem parseGroup_dump {g : OpGroup Name} (h : GoodGroup g) : parseGroup g.dump = some g := by
  cases g with
  | set s =>
    have h1 : parseSet s.dump = some s := parseSet_dump h
    have h2 : s.dump.get .type = some (.tag false) := by simp [OpSet.dump, J.get, Dict.get_cons]
    simp [parseGroup, OpGroup.dump, h1, h2]
  | group n l =>
    have h1 := toList_dump OpSet.dump parseSet l fun s hs => parseSet_dump (h.2 s hs)
    simp [parseGroup, OpGroup.dump, J.req, J.get, Dict.get_cons, J.toStr, h1, h.1]

theorem parseGroups_dump {l : List (OpGroup Name)} (h : ∀ g ∈ l, GoodGroup g) :
    J.toList parseGroup (.arr (l.map OpGroup.dump)) = some l :=
  toList_dump OpGroup.dump parseGroup l fun g hg => parseGroup_dump (h g hg)

theorem parseFusing_dump {f : Fusing Name} (h : 2 ≤ f.groups.length) (hg : ∀ g ∈ f.groups, GoodGroup g)
    (hc : ∀ c, f.cfg = some c → GoodOp c) : parseFusing f.dump = some f := by
  have h1 := parseGroups_dump hg
  have h2 := nullable_opt OpCfg.dump parseOp (fun a => by simp [OpCfg.dump]) f.cfg fun c he => parseOp_dump (hc c he)
  simp [parseFusing, Fusing.dump, J.req, J.optF, J.dfl, J.get, Dict.get_cons, J.toStr, h1, h2, fusingOk, h]

theorem parseFusing_dumpV1 {f : FusingV1 Name} (h : 2 ≤ f.groups.length) (hg : ∀ g ∈ f.groups, GoodGroup g) :
    parseFusing f.dump = some ⟨f.groups, none, f.name⟩ := by
  have h1 := parseGroups_dump hg
  simp [parseFusing, FusingV1.dump, J.req, J.optF, J.dfl, J.get, Dict.get_cons, Dict.get_nil, J.toStr, h1, fusingOk, h]

theorem tpcOk_of_good {d : Qco Name} {sets : Option (List (OpSet Name))} (h : GoodParts d sets) : tpcOk d sets = true := by
  obtain ⟨_, h1, h2⟩ := h
  unfold tpcOk
  cases sets with
  | none => simp [h1]
  | some l => simp [h1, (h2 l rfl).2]

theorem parseSets_dump {sets : Option (List (OpSet Name))} (h : ∀ l, sets = some l → ∀ s ∈ l, GoodSet s) :
    J.nullable (J.toList parseSet) (J.opt (fun l => .arr (l.map OpSet.dump)) sets) = some sets :=
  nullable_opt _ _ (fun a => by simp) sets fun l hl => toList_dump OpSet.dump parseSet l fun s hs =>
    parseSet_dump (h l hl s hs)

theorem parseTpc_dump {t : TpcV2 Name} (h : GoodV2 t) (v : Nat) : parseTpc (t.dump v) = some (t, v) := by
  have h1 := parseQco_dump h.1.1
  have h2 := parseSets_dump fun l hl => (h.1.2.2 l hl).1
  have h3 := nullable_opt (fun l => J.arr (l.map Fusing.dump)) (J.toList parseFusing) (fun a => by simp) t.fusing
    fun fs hf => toList_dump Fusing.dump parseFusing fs fun f hm =>
      parseFusing_dump (h.2 fs hf f hm).1 (h.2 fs hf f hm).2.1 (h.2 fs hf f hm).2.2
  have h4 := nullable_opt J.nat J.toNat nat_ne_null t.minor fun a _ => toNat_nat a
  have h5 := nullable_opt J.nat J.toNat nat_ne_null t.patch fun a _ => toNat_nat a
  have h6 := nullable_opt J.str J.toStr (fun a => by simp) t.platform fun a _ => rfl
  have h7 := nullable_opt J.str J.toStr (fun a => by simp) t.name fun a _ => rfl
  simp [parseTpc, TpcV2.dump, dumpCommon, J.req, J.optF, J.dfl, J.get, Dict.get_cons, J.toBool, toNat_nat,
    h1, h2, h3, h4, h5, h6, h7, tpcOk_of_good h.1]

/-- What reading a file of schema 1 gives. -/
def fromFileV1 (t : TpcV1 Name) : TpcV2 Name where
  defaultQco := t.defaultQco
  opSets := t.opSets
  fusing := t.fusing.map fun fs => fs.map fun f => ⟨f.groups, none, f.name⟩
  minor := t.minor
  patch := t.patch
  platform := t.platform
  addMetadata := t.addMetadata
  name := t.name
  simdPadding := t.simdPadding
  insertPreserving := false

theorem mapM_map' {α β γ : Type} (dump : α → β) (p : β → Option γ) (g : α → γ) (l : List α)
    (h : ∀ a ∈ l, p (dump a) = some (g a)) : (l.map dump).mapM p = some (l.map g) := by
  induction l with
  | nil => rfl
  | cons a l ih =>
    rw [List.map_cons, List.mapM_cons, h a (List.mem_cons_self ..), ih fun b hb => h b (List.mem_cons_of_mem _ hb)]
    rfl

theorem parseTpc_dumpV1 {t : TpcV1 Name} (h : GoodV1 t) : parseTpc t.dump = some (fromFileV1 t, 1) := by
  have h1 := parseQco_dump h.1.1
  have h2 := parseSets_dump fun l hl => (h.1.2.2 l hl).1
  have h3 : J.nullable (J.toList parseFusing) (J.opt (fun l => J.arr (l.map FusingV1.dump)) t.fusing) =
      some (t.fusing.map fun fs => fs.map fun f => (⟨f.groups, none, f.name⟩ : Fusing Name)) := by
    cases hf : t.fusing with
    | none => rfl
    | some fs =>
      have : J.toList parseFusing (.arr (fs.map FusingV1.dump)) =
          some (fs.map fun f => (⟨f.groups, none, f.name⟩ : Fusing Name)) :=
        mapM_map' FusingV1.dump parseFusing _ fs fun f hm =>
          parseFusing_dumpV1 (h.2 fs hf f hm).1 (h.2 fs hf f hm).2
      simp [J.opt, J.nullable, this]
  have h4 := nullable_opt J.nat J.toNat nat_ne_null t.minor fun a _ => toNat_nat a
  have h5 := nullable_opt J.nat J.toNat nat_ne_null t.patch fun a _ => toNat_nat a
  have h6 := nullable_opt J.str J.toStr (fun a => by simp) t.platform fun a _ => rfl
  have h7 := nullable_opt J.str J.toStr (fun a => by simp) t.name fun a _ => rfl
  simp [parseTpc, TpcV1.dump, dumpCommon, J.req, J.optF, J.dfl, J.get, Dict.get_cons, Dict.get_nil, J.toBool, toNat_nat,
    h1, h2, h3, h4, h5, h6, h7, tpcOk_of_good h.1, fromFileV1]

/-! ### The property -/

/-- C137.  Every TPC of the current schema that its constructors accept is loaded unchanged from the file it was saved
to, if the file is named `.json`. -/
theorem C137_roundtrip (t : TpcV2 Name) (h : GoodV2 t) (v : Nat) : loadFile (saveV2 jsonExt t v) = some (t, v) := by
  simp [loadFile, saveV2, parseTpc_dump h v]

/-- C137 (violated).  A TPC can be saved to a file with any other extension, and is then never loaded. -/
theorem C137_extension_violated (t : TpcV2 Name) (v : Nat) (ext : Name) (h : ext ≠ jsonExt) :
    loadFile (saveV2 ext t v) = none := by
  simp [loadFile, saveV2, h]

/-- C137.  Files determine what was saved: different TPCs give different files. -/
theorem C137_injective (t t' : TpcV2 Name) (h : GoodV2 t) (h' : GoodV2 t') (v v' : Nat)
    (he : t.dump v = t'.dump v') : t = t' ∧ v = v' := by
  have h1 := parseTpc_dump h v
  rw [he, parseTpc_dump h' v'] at h1
  simp only [Option.some.injEq, Prod.mk.injEq] at h1
  exact ⟨h1.1.symm, h1.2.symm⟩

/-- C137.  A saved TPC of schema 1 is read as one of schema 2 with all its fields, its fusing patterns without a
configuration of the fused operator, and it goes on showing version 1. -/
theorem C137_v1_file (t : TpcV1 Name) (h : GoodV1 t) : loadFile (saveV1 jsonExt t) = some (fromFileV1 t, 1) := by
  simp [loadFile, saveV1, parseTpc_dumpV1 h]

/-- C137 (violated).  The same TPC of schema 1 given as an object and as a file is never the same: the object is upgraded
and shows version 2, the file is not and shows version 1. -/
theorem C137_v1_differs_violated (t : TpcV1 Name) (h : GoodV1 t) :
    loadObject (.v1 t) ≠ loadFile (saveV1 jsonExt t) := by
  rw [C137_v1_file t h]
  intro he
  simp only [loadObject] at he
  obtain ⟨t', _, h2⟩ := Option.map_eq_some_iff.1 he
  simp at h2

/-- C137.  An object given to the library shows version 2 whatever its schema, and one of the current schema is taken as
it is. -/
theorem C137_object (o : AnyTpc Name) :
    (∀ t v, loadObject o = some (t, v) → v = 2) ∧ ∀ t, o = .v2 t → loadObject o = some (t, 2) := by
  refine ⟨fun t v h => ?_, fun t h => by rw [h]; rfl⟩
  cases o with
  | v2 t' => simp only [loadObject, Option.some.injEq, Prod.mk.injEq] at h; exact h.2.symm
  | v1 t' =>
    simp only [loadObject] at h
    obtain ⟨_, _, h2⟩ := Option.map_eq_some_iff.1 h
    simp only [Prod.mk.injEq] at h2
    exact h2.2.symm

/-- C137.  A configuration of a weight attribute in a file may leave out its fields: then it does not quantize, with the
power-of-two method, 32 bits and one threshold. -/
theorem C137_attr_defaults (l : List (Key × J)) (h : ∀ f, Dict.get l (.field f) = none) :
    parseAttr (.obj l) = some ⟨.pot, 32, false, false, none⟩ := by
  simp [parseAttr, J.dfl, J.optF, J.get, h, floatBits]

/-- C137.  A file may give one number for the input bit widths of an operator: it is read like the list with this
number. -/
theorem C137_one_input_width (l : List (Key × J)) (w : Nat) :
    parseOp (.obj ((.field .supported_input_activation_n_bits, .nat w) :: l)) =
      parseOp (.obj ((.field .supported_input_activation_n_bits, .arr [.nat w]) :: l)) := by
  have h1 : parseInBits (.nat w) = some [w] := by
    have := toNat_nat w
    unfold J.nat at this ⊢
    simp [parseInBits, this]
  have h2 : parseInBits (.arr [.nat w]) = some [w] := toList_dump J.nat J.toNat [w] fun a _ => toNat_nat a
  simp [parseOp, J.optF, J.dfl, J.req, J.get, Dict.get_cons, h1, h2]

example : parseInBits (.nat 8) = some [8] := by decide +kernel

/-- C137 (partial).  Up to that number, the two agree exactly if the TPC has the default name and no SIMD padding, and
lists no fusing pattern (the list being present). -/
theorem C137_v1_agree_partial (t : TpcV1 Name) (h : GoodV1 t) :
    (loadObject (.v1 t)).map (·.1) = (loadFile (saveV1 jsonExt t)).map (·.1) ↔
      t.name = some defaultName ∧ t.simdPadding = false ∧ t.fusing = some [] := by
  rw [C137_v1_file t h]
  simp only [loadObject, Option.map_map, Option.map_some]
  cases hf : t.fusing with
  | none => simp [v1ToV2, hf]
  | some fs =>
    have hok : (fs.all (fun f => fusingOk f.groups) && tpcOk t.defaultQco t.opSets) = true := by
      rw [Bool.and_eq_true, List.all_eq_true]
      exact ⟨fun f hm => by simpa [fusingOk] using (h.2 fs hf f hm).1, tpcOk_of_good h.1⟩
    simp only [v1ToV2, hf, hok, if_true, Option.map_some, Function.comp, Option.some.injEq, fromFileV1,
      TpcV2.mk.injEq, true_and]
    constructor
    · rintro ⟨h1, h2, h3, -⟩
      refine ⟨h2.symm, h3.symm, ?_⟩
      cases fs with
      | nil => rfl
      | cons f fs => simp at h1
    · rintro ⟨h1, h2, rfl⟩
      simp [h1, h2]

/-! ### Cases that meet the hypotheses, and edited configurations -/

def plainAttr : AttrCfg := ⟨.sym, 8, true, true, none⟩

def plainCfg (a : AttrCfg) : OpCfg Name :=
  ⟨a, [(['k'], a), (['b'], { a with nBits := 16 })], .pot, 8, [8, 16], true, false, .auto, some (1 / 3), some (-2), some 32⟩

def plainTpc (a : AttrCfg) : TpcV2 Name where
  defaultQco := ⟨[plainCfg a], plainCfg a⟩
  opSets := some [⟨['C'], some ⟨[plainCfg a], plainCfg a⟩⟩, ⟨['R'], none⟩]
  fusing := some [⟨[.set ⟨['C'], none⟩, .group ['g'] [⟨['R'], none⟩]], some (plainCfg a), ['f']⟩]
  minor := some 1
  patch := none
  platform := some ['i']
  addMetadata := false
  name := none
  simdPadding := true
  insertPreserving := true

theorem plain_good : GoodV2 (plainTpc plainAttr) := by
  have hop : GoodOp (plainCfg plainAttr) := by
    refine ⟨by simp [GoodAttr, plainCfg, plainAttr], ?_, by decide⟩
    intro p hp
    simp only [plainCfg, List.mem_cons, List.not_mem_nil, or_false] at hp
    rcases hp with rfl | rfl <;> simp [GoodAttr, plainAttr]
  have hq : GoodQco ⟨[plainCfg plainAttr], plainCfg plainAttr⟩ := ⟨by simp, by simpa using hop⟩
  refine ⟨⟨hq, rfl, ?_⟩, ?_⟩
  · intro l hl
    simp only [plainTpc, Option.some.injEq] at hl
    subst hl
    refine ⟨?_, by decide⟩
    intro s hs
    simp only [List.mem_cons, List.not_mem_nil, or_false] at hs
    rcases hs with rfl | rfl
    · intro q hq'; rw [← Option.some.inj hq']; exact hq
    · intro q hq'; cases hq'
  · intro fs hfs f hf
    simp only [plainTpc, Option.some.injEq] at hfs
    subst hfs
    simp only [List.mem_cons, List.not_mem_nil, or_false] at hf
    subst hf
    refine ⟨by simp, ?_, fun c hc => by rw [← Option.some.inj hc]; exact hop⟩
    intro g hg
    simp only [List.mem_cons, List.not_mem_nil, or_false] at hg
    rcases hg with rfl | rfl
    · intro q hq'; cases hq'
    · refine ⟨by simp, ?_⟩
      intro s hs q hq'
      simp only [List.mem_cons, List.not_mem_nil, or_false] at hs
      subst hs
      cases hq'

example : loadFile (saveV2 jsonExt (plainTpc plainAttr) 2) = some (plainTpc plainAttr, 2) :=
  C137_roundtrip _ plain_good 2

/-- A TPC of schema 1 that meets the hypotheses. -/
def plainV1 : TpcV1 Name :=
  ⟨(plainTpc plainAttr).defaultQco, (plainTpc plainAttr).opSets, some [⟨[.set ⟨['C'], none⟩, .set ⟨['R'], none⟩], ['f']⟩],
    some 1, none, none, true, some ['m'], true⟩

example : GoodV1 plainV1 ∧ GoodV1 { plainV1 with name := some defaultName, simdPadding := false, fusing := some [] } := by
  refine ⟨⟨plain_good.1, ?_⟩, plain_good.1, by simp⟩
  intro fs hfs f hf
  simp only [plainV1, Option.some.injEq] at hfs
  subst hfs
  simp only [List.mem_cons, List.not_mem_nil, or_false] at hf
  subst hf
  refine ⟨by simp, ?_⟩
  intro g hg
  simp only [List.mem_cons, List.not_mem_nil, or_false] at hg
  rcases hg with rfl | rfl <;> (intro q hq; cases hq)

/-- C137 (violated).  `clone_and_edit` does not validate what it is given: a configuration edited to zero bits can be
used and saved, and the file is not loaded. -/
theorem C137_edited_violated (v : Nat) :
    loadFile (saveV2 jsonExt (plainTpc (plainAttr.cloneAndEdit { nBits := some 0 })) v) = none := by
  have h0 : (J.nat 0).toPos = none := by simp [J.toPos, toNat_nat]
  have hattr : parseAttr (plainAttr.cloneAndEdit { nBits := some 0 }).dump = none := by
    simp [parseAttr, AttrCfg.dump, AttrCfg.cloneAndEdit, J.dfl, J.get, Dict.get_cons, h0, toMethod_code]
  simp [loadFile, saveV2, plainTpc, plainCfg, TpcV2.dump, dumpCommon, parseTpc, J.req, J.get, Dict.get_cons, Qco.dump,
    parseQco, J.toList, OpCfg.dump, parseOp, hattr]

end MCT.Tpc
