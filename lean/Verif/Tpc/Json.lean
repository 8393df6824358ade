/-
Model of saving target platform capabilities to a JSON file and loading them
(target_platform_capabilities/tpc_io_handler.py, with the pydantic classes of schema/v1.py and schema/v2.py).

A file is the tree of JSON values in it; printing and reading the text are not modelled.  Keys of objects are the
field names of the classes (`F`, spelled as in Python) or names of weight attributes.  Numbers are rational, so
infinite and undefined scales are not covered (`model_dump_json` writes them as `null`).  A parser accepts values of
the declared type only; the conversions of pydantic (numbers given as strings and the like) are left out.
-/
import Verif.Tpc.Model

namespace MCT.Tpc
open MCT.Py

/-- Field names. -/
inductive F
  | weights_quantization_method | weights_n_bits | weights_per_channel_threshold | enable_weights_quantization
  | lut_values_bitwidth
  | default_weight_attr_config | attr_weights_configs_mapping | activation_quantization_method | activation_n_bits
  | supported_input_activation_n_bits | enable_activation_quantization | quantization_preserving | signedness
  | fixed_scale | fixed_zero_point | simd_size
  | quantization_configurations | base_config
  | name | qc_options | type | operators_set
  | operator_groups | fuse_op_quantization_config
  | default_qco | operator_set | fusing_patterns | tpc_minor_version | tpc_patch_version | tpc_platform_type
  | add_metadata | is_simd_padding | insert_preserving_quantizers | SCHEMA_VERSION
  deriving DecidableEq, Repr

inductive Key
  | field (f : F)
  | attr (n : Name)
  deriving DecidableEq, Repr

/-- JSON values; `tag` are the strings of the `type` fields. -/
inductive J
  | null
  | bool (b : Bool)
  | num (q : Rat)
  | str (s : Name)
  | tag (group : Bool)
  | arr (l : List J)
  | obj (l : List (Key × J))

/-! ### Writing (`model_dump_json`, tpc_io_handler.py:99-124) -/

def J.opt {α : Type} (f : α → J) : Option α → J
  | none => .null
  | some a => f a

def J.nat (n : Nat) : J := .num (n : Rat)

def J.int (z : Int) : J := .num (z : Rat)

/-- The value of an enumerator (`mct_quantizers.QuantizationMethod`). -/
def Method.code : Method → Nat
  | .pot => 0 | .lutPot => 1 | .sym => 2 | .uniform => 3 | .lutSym => 4

/-- v1.py:99-101. -/
def Signedness.code : Signedness → Nat
  | .auto => 0 | .signed => 1 | .unsigned => 2

/-- `AttributeQuantizationConfig`, v1.py:104-120. -/
def AttrCfg.dump (c : AttrCfg) : J := .obj [
  (.field .weights_quantization_method, .nat c.method.code),
  (.field .weights_n_bits, .nat c.nBits),
  (.field .weights_per_channel_threshold, .bool c.perChannel),
  (.field .enable_weights_quantization, .bool c.enabled),
  (.field .lut_values_bitwidth, .opt .nat c.lutBits)]

/-- `OpQuantizationConfig`, v1.py:142-171. -/
def OpCfg.dump (c : OpCfg Name) : J := .obj [
  (.field .default_weight_attr_config, c.defaultAttr.dump),
  (.field .attr_weights_configs_mapping, .obj (c.attrs.map fun p => (.attr p.1, p.2.dump))),
  (.field .activation_quantization_method, .nat c.actMethod.code),
  (.field .activation_n_bits, .nat c.actBits),
  (.field .supported_input_activation_n_bits, .arr (c.inBits.map .nat)),
  (.field .enable_activation_quantization, .bool c.enableAct),
  (.field .quantization_preserving, .bool c.preserving),
  (.field .signedness, .nat c.signedness.code),
  (.field .fixed_scale, .opt .num c.fixedScale),
  (.field .fixed_zero_point, .opt .int c.fixedZero),
  (.field .simd_size, .opt .nat c.simd)]

/-- `QuantizationConfigOptions`, v1.py:229-240. -/
def Qco.dump (q : Qco Name) : J := .obj [
  (.field .quantization_configurations, .arr (q.configs.map OpCfg.dump)),
  (.field .base_config, q.base.dump)]

/-- `OperatorsSet`, v1.py:422-438. -/
def OpSet.dump (s : OpSet Name) : J := .obj [
  (.field .name, .str s.name), (.field .qc_options, .opt Qco.dump s.qco), (.field .type, .tag false)]

/-- `OperatorSetGroup`, v1.py:450-465. -/
def OpGroup.dump : OpGroup Name → J
  | .set s => s.dump
  | .group n l => .obj [
      (.field .operators_set, .arr (l.map OpSet.dump)), (.field .name, .str n), (.field .type, .tag true)]

/-- `Fusing` of schema 2, v2.py:102-117. -/
def Fusing.dump (f : Fusing Name) : J := .obj [
  (.field .operator_groups, .arr (f.groups.map OpGroup.dump)),
  (.field .fuse_op_quantization_config, .opt OpCfg.dump f.cfg),
  (.field .name, .str f.name)]

/-- `Fusing` of schema 1, v1.py:505-519. -/
def FusingV1.dump (f : FusingV1 Name) : J := .obj [
  (.field .operator_groups, .arr (f.groups.map OpGroup.dump)), (.field .name, .str f.name)]

/-- The fields of both schemas in front, in the order of v1.py:618-627 and v2.py:220-231. -/
def dumpCommon (defaultQco : Qco Name) (opSets : Option (List (OpSet Name))) (fusing : J) (minor patch : Option Nat)
    (platform : Option Name) (addMetadata : Bool) (name : Option Name) (simd : Bool) : List (Key × J) := [
  (.field .default_qco, defaultQco.dump),
  (.field .operator_set, .opt (fun l => .arr (l.map OpSet.dump)) opSets),
  (.field .fusing_patterns, fusing),
  (.field .tpc_minor_version, .opt .nat minor),
  (.field .tpc_patch_version, .opt .nat patch),
  (.field .tpc_platform_type, .opt .str platform),
  (.field .add_metadata, .bool addMetadata),
  (.field .name, .opt .str name),
  (.field .is_simd_padding, .bool simd)]

def TpcV2.dump (t : TpcV2 Name) (version : Nat) : J := .obj
  (dumpCommon t.defaultQco t.opSets (.opt (fun l => .arr (l.map Fusing.dump)) t.fusing) t.minor t.patch t.platform
    t.addMetadata t.name t.simdPadding ++
   [(.field .insert_preserving_quantizers, .bool t.insertPreserving), (.field .SCHEMA_VERSION, .nat version)])

def TpcV1.dump (t : TpcV1 Name) : J := .obj
  (dumpCommon t.defaultQco t.opSets (.opt (fun l => .arr (l.map FusingV1.dump)) t.fusing) t.minor t.patch t.platform
    t.addMetadata t.name t.simdPadding ++ [(.field .SCHEMA_VERSION, .nat 1)])

/-! ### Reading (`parse_raw` of the current schema, tpc_io_handler.py:34-65) -/

/-- A field of an object, when present. -/
def J.get : J → F → Option J
  | .obj l, f => Dict.get l (.field f)
  | _, _ => none

def J.toBool : J → Option Bool
  | .bool b => some b
  | _ => none

def J.toRat : J → Option Rat
  | .num q => some q
  | _ => none

def J.toInt : J → Option Int
  | .num q => if q.den = 1 then some q.num else none
  | _ => none

def J.toNat (j : J) : Option Nat := j.toInt.bind fun z => if 0 ≤ z then some z.toNat else none

def J.toStr : J → Option Name
  | .str s => some s
  | _ => none

def J.toList {α : Type} (p : J → Option α) : J → Option (List α)
  | .arr l => l.mapM p
  | _ => none

/-- A required field. -/
def J.req {α : Type} (j : J) (f : F) (p : J → Option α) : Option α := (j.get f).bind p

/-- A field with a default. -/
def J.dfl {α : Type} (j : J) (f : F) (p : J → Option α) (d : α) : Option α :=
  match j.get f with
  | none => some d
  | some v => p v

/-- A value that may be `null`. -/
def J.nullable {α : Type} (p : J → Option α) : J → Option (Option α)
  | .null => some none
  | j => (p j).map some

/-- An optional field, `None` when absent. -/
def J.optF {α : Type} (j : J) (f : F) (p : J → Option α) : Option (Option α) := j.dfl f (J.nullable p) none

def Method.ofCode : Nat → Option Method
  | 0 => some .pot | 1 => some .lutPot | 2 => some .sym | 3 => some .uniform | 4 => some .lutSym
  | _ => none

def Signedness.ofCode : Nat → Option Signedness
  | 0 => some .auto | 1 => some .signed | 2 => some .unsigned
  | _ => none

def J.toMethod (j : J) : Option Method := j.toNat.bind Method.ofCode

def J.toSignedness (j : J) : Option Signedness := j.toNat.bind Signedness.ofCode

/-- `PositiveInt`. -/
def J.toPos (j : J) : Option Nat := j.toNat.bind fun n => if 0 < n then some n else none

/-- `FLOAT_BITWIDTH` (constants.py). -/
def floatBits : Nat := 32

/-- v1.py:116-120. -/
def parseAttr (j : J) : Option AttrCfg :=
  (j.dfl .weights_quantization_method J.toMethod .pot).bind fun m =>
  (j.dfl .weights_n_bits J.toPos floatBits).bind fun n =>
  (j.dfl .weights_per_channel_threshold J.toBool false).bind fun pc =>
  (j.dfl .enable_weights_quantization J.toBool false).bind fun e =>
  (j.optF .lut_values_bitwidth J.toNat).bind fun l =>
  some ⟨m, n, pc, e, l⟩

def parseAttrItem (p : Key × J) : Option (Name × AttrCfg) :=
  match p.1 with
  | .attr n => (parseAttr p.2).map fun c => (n, c)
  | .field _ => none

/-- `Dict[str, AttributeQuantizationConfig]`. -/
def parseAttrs : J → Option (Dict Name AttrCfg)
  | .obj l => (l.mapM parseAttrItem).map Dict.ofItems
  | _ => none

/-- `supported_input_activation_n_bits` (v1.py:173-188): a number counts as a list of one. -/
def parseInBits (j : J) : Option (List Nat) :=
  match j with
  | .num _ => j.toNat.map fun n => [n]
  | _ => j.toList J.toNat

/-- v1.py:159-169. -/
def parseOp (j : J) : Option (OpCfg Name) :=
  (j.req .default_weight_attr_config parseAttr).bind fun d =>
  (j.req .attr_weights_configs_mapping parseAttrs).bind fun a =>
  (j.req .activation_quantization_method J.toMethod).bind fun m =>
  (j.req .activation_n_bits J.toNat).bind fun n =>
  (j.req .supported_input_activation_n_bits parseInBits).bind fun i =>
  (j.req .enable_activation_quantization J.toBool).bind fun e =>
  (j.req .quantization_preserving J.toBool).bind fun p =>
  (j.req .signedness J.toSignedness).bind fun s =>
  (j.optF .fixed_scale J.toRat).bind fun fs =>
  (j.optF .fixed_zero_point J.toInt).bind fun fz =>
  (j.optF .simd_size J.toNat).bind fun sd =>
  some ⟨d, a, m, n, i, e, p, s, fs, fz, sd⟩

/-- v1.py:238-288; whether the base configuration is one of the options is tested here after parsing, in the code
before it. -/
def parseQco (j : J) : Option (Qco Name) :=
  (j.req .quantization_configurations (J.toList parseOp)).bind fun l =>
  (j.optF .base_config parseOp).bind fun b => mkQco l b

/-- v1.py:432-436. -/
def parseSet (j : J) : Option (OpSet Name) :=
  (j.req .name J.toStr).bind fun n => (j.optF .qc_options parseQco).bind fun q => some ⟨n, q⟩

/-- A member of a fusing pattern: the class is chosen by the field `type` (v2.py:113).  A group needs a member and,
read from a file, a name: without one the validator takes `op.name` of a dictionary (v1.py:466-490). -/
def parseGroup (j : J) : Option (OpGroup Name) :=
  match j.get .type with
  | some (.tag false) => (parseSet j).map .set
  | some (.tag true) =>
    (j.req .operators_set (J.toList parseSet)).bind fun l =>
      if l = [] then none else (j.req .name J.toStr).map fun n => .group n l
  | _ => none

/-- `Fusing` of schema 2 (v2.py:113-155); the name is needed as for groups. -/
def parseFusing (j : J) : Option (Fusing Name) :=
  (j.req .operator_groups (J.toList parseGroup)).bind fun g =>
  (j.optF .fuse_op_quantization_config parseOp).bind fun c =>
  (j.req .name J.toStr).bind fun n =>
  if fusingOk g then some ⟨g, c, n⟩ else none

/-- `TargetPlatformCapabilities.parse_raw` of schema 2 (v2.py:220-264), with the schema version it then shows;
tpc_io_handler.py:57 parses every file so, whatever version it names. -/
def parseTpc (j : J) : Option (TpcV2 Name × Nat) :=
  (j.req .default_qco parseQco).bind fun d =>
  (j.optF .operator_set (J.toList parseSet)).bind fun o =>
  (j.optF .fusing_patterns (J.toList parseFusing)).bind fun f =>
  (j.optF .tpc_minor_version J.toNat).bind fun mi =>
  (j.optF .tpc_patch_version J.toNat).bind fun pa =>
  (j.optF .tpc_platform_type J.toStr).bind fun pl =>
  (j.dfl .add_metadata J.toBool true).bind fun am =>
  (j.dfl .name (J.nullable J.toStr) (some defaultName)).bind fun n =>
  (j.dfl .is_simd_padding J.toBool false).bind fun s =>
  (j.dfl .insert_preserving_quantizers J.toBool false).bind fun ip =>
  (j.dfl .SCHEMA_VERSION J.toNat 2).bind fun v =>
  if tpcOk d o then some (⟨d, o, f, mi, pa, pl, am, n, s, ip⟩, v) else none

/-! ### Files -/

/-- A file: the extension of its path in lower case, and its content. -/
structure File where
  ext : Name
  content : J

def jsonExt : Name := ['.', 'j', 's', 'o', 'n']

/-- `export_target_platform_capabilities` (tpc_io_handler.py:99-124): the extension is not examined. -/
def saveV2 (ext : Name) (t : TpcV2 Name) (version : Nat) : File := ⟨ext, t.dump version⟩

def saveV1 (ext : Name) (t : TpcV1 Name) : File := ⟨ext, t.dump⟩

/-- `_get_tpc_from_json` (tpc_io_handler.py:34-65): the parsed object is of the current schema, so the conversion
after it does nothing. -/
def loadFile (f : File) : Option (TpcV2 Name × Nat) := if f.ext = jsonExt then parseTpc f.content else none

/-- `load_target_platform_capabilities` (tpc_io_handler.py:68-96) on an object; the upgraded object shows the version
of the current schema. -/
def loadObject : AnyTpc Name → Option (TpcV2 Name × Nat)
  | .v2 t => some (t, 2)
  | .v1 t => (v1ToV2 t).map fun t' => (t', 2)

end MCT.Tpc
