/-
Model of the target platform capabilities: quantization options and their editing, the upgrade of the
schema, layer filters, the attachment of operator sets to framework layers, the options chosen for a
node and the fusing patterns.

Sources (all under /repo/model_compression_toolkit):
  target_platform_capabilities/schema/v1.py, v2.py, schema_compatability.py, schema_functions.py
  target_platform_capabilities/targetplatform2framework/attribute_filter.py, layer_filter_params.py,
    framework_quantization_capabilities.py, operations_to_layers.py, current_tpc.py
  quantization_preparation/load_fqc.py
  core/common/graph/base_node.py (is_match_type, is_match_filter_params)

A Python exception (a failed assertion and `Logger.critical` included) is the value `none`.  Names of
weight attributes range over any type `κ` with decidable equality, because Python lets a mapping of
attribute names produce `None` as well as strings.
-/
import Verif.Tpc.Dict
import Mathlib.Data.Rat.Defs

namespace MCT.Tpc
open MCT.Py

set_option linter.unusedSectionVars false
set_option linter.unusedVariables false

/-- Strings are lists of characters. -/
abbrev Name := List Char

/-- `mct_quantizers.QuantizationMethod`. -/
inductive Method | pot | lutPot | sym | lutSym | uniform
  deriving DecidableEq, Repr

/-- v1.py 91-101. -/
inductive Signedness | auto | signed | unsigned
  deriving DecidableEq, Repr

/-- `AttributeQuantizationConfig`, v1.py 104-120. -/
structure AttrCfg where
  method : Method
  nBits : Nat
  perChannel : Bool
  enabled : Bool
  lutBits : Option Nat
  deriving DecidableEq, Repr

/-- Keyword arguments of `AttributeQuantizationConfig.clone_and_edit`; an absent argument is `none`. -/
structure AttrEdit where
  method : Option Method := none
  nBits : Option Nat := none
  perChannel : Option Bool := none
  enabled : Option Bool := none
  lutBits : Option (Option Nat) := none
  deriving DecidableEq, Repr

/-- `AttributeQuantizationConfig.clone_and_edit`, v1.py 129-139: `model_copy(update=kwargs)`. -/
def AttrCfg.cloneAndEdit (c : AttrCfg) (e : AttrEdit) : AttrCfg where
  method := e.method.getD c.method
  nBits := e.nBits.getD c.nBits
  perChannel := e.perChannel.getD c.perChannel
  enabled := e.enabled.getD c.enabled
  lutBits := e.lutBits.getD c.lutBits

variable {κ : Type} [DecidableEq κ]

/-- `OpQuantizationConfig`, v1.py 142-171. -/
structure OpCfg (κ : Type) where
  defaultAttr : AttrCfg
  attrs : Dict κ AttrCfg
  actMethod : Method
  actBits : Nat
  inBits : List Nat
  enableAct : Bool
  preserving : Bool
  signedness : Signedness
  fixedScale : Option Rat
  fixedZero : Option Int
  simd : Option Nat
  deriving DecidableEq, Repr

/-- Keyword arguments of `OpQuantizationConfig.clone_and_edit` other than `attr_to_edit`. -/
structure OpEdit (κ : Type) where
  defaultAttr : Option AttrCfg := none
  attrs : Option (Dict κ AttrCfg) := none
  actMethod : Option Method := none
  actBits : Option Nat := none
  inBits : Option (List Nat) := none
  enableAct : Option Bool := none
  preserving : Option Bool := none
  signedness : Option Signedness := none
  fixedScale : Option (Option Rat) := none
  fixedZero : Option (Option Int) := none
  simd : Option (Option Nat) := none
  deriving DecidableEq, Repr

/-- One attribute in `OpQuantizationConfig.clone_and_edit`, v1.py 219-223. -/
def editAttr (attrToEdit : Dict κ AttrEdit) (a : κ) (c : AttrCfg) : AttrCfg :=
  match attrToEdit.get a with
  | some ae => c.cloneAndEdit ae
  | none => c

/-- `OpQuantizationConfig.clone_and_edit`, v1.py 199-226: first the top level fields, then the
attributes named in `attr_to_edit`. -/
def OpCfg.cloneAndEdit (c : OpCfg κ) (attrToEdit : Dict κ AttrEdit) (e : OpEdit κ) : OpCfg κ :=
  let attrs0 := e.attrs.getD c.attrs
  { defaultAttr := e.defaultAttr.getD c.defaultAttr
    attrs := attrs0.map (fun p => (p.1, editAttr attrToEdit p.1 p.2))
    actMethod := e.actMethod.getD c.actMethod
    actBits := e.actBits.getD c.actBits
    inBits := e.inBits.getD c.inBits
    enableAct := e.enableAct.getD c.enableAct
    preserving := e.preserving.getD c.preserving
    signedness := e.signedness.getD c.signedness
    fixedScale := e.fixedScale.getD c.fixedScale
    fixedZero := e.fixedZero.getD c.fixedZero
    simd := e.simd.getD c.simd }

/-- `QuantizationConfigOptions`, v1.py 229-240. The base configuration is always set, because the
validator sets it. -/
structure Qco (κ : Type) where
  configs : List (OpCfg κ)
  base : OpCfg κ
  deriving DecidableEq, Repr

/-- `QuantizationConfigOptions.validate_and_set_base_config`, v1.py 242-288. -/
def mkQco (configs : List (OpCfg κ)) (base : Option (OpCfg κ)) : Option (Qco κ) :=
  match configs with
  | [] => none
  | c :: rest =>
    match base with
    | none => if rest.isEmpty then some ⟨configs, c⟩ else none
    | some b => if b ∈ configs then some ⟨configs, b⟩ else none

/-- `QuantizationConfigOptions.clone_and_edit`, v1.py 290-309. -/
def Qco.cloneAndEdit (q : Qco κ) (attrToEdit : Dict κ AttrEdit) (e : OpEdit κ) : Qco κ where
  configs := q.configs.map (fun c => c.cloneAndEdit attrToEdit e)
  base := q.base.cloneAndEdit attrToEdit e

/-- The new attribute mapping of one configuration in `clone_and_edit_weight_attribute`, v1.py 332-346:
it holds the edited attributes only. -/
def editedAttrs (qc : OpCfg κ) (attrs : Option (List κ)) (e : AttrEdit) : Option (Dict κ AttrCfg) :=
  let toUpdate := match attrs with
    | none => qc.attrs.keys
    | some l => l
  (toUpdate.mapM (fun a => (qc.attrs.get a).map (fun c => (a, c.cloneAndEdit e)))).map Dict.ofItems

/-- `qc.clone_and_edit(attr_weights_configs_mapping=m)`, v1.py 350, 353, 389, 392. -/
def OpCfg.withAttrs (c : OpCfg κ) (m : Dict κ AttrCfg) : OpCfg κ :=
  c.cloneAndEdit [] { attrs := some m }

/-- The loop shared by `clone_and_edit_weight_attribute` and `clone_and_map_weights_attr_keys`: every
configuration gets a new attribute mapping, and the base configuration that of the last configuration
equal to it. v1.py 329-357, 375-398. -/
def remapConfigs (base : OpCfg κ) (f : OpCfg κ → Option (Dict κ AttrCfg)) :
    List (OpCfg κ) → OpCfg κ → Option (List (OpCfg κ) × OpCfg κ)
  | [], newBase => some ([], newBase)
  | qc :: rest, newBase =>
    match f qc with
    | none => none
    | some m =>
      let newBase' := if qc = base then qc.withAttrs m else newBase
      match remapConfigs base f rest newBase' with
      | none => none
      | some (cs, b) => some (qc.withAttrs m :: cs, b)

/-- `QuantizationConfigOptions.clone_and_edit_weight_attribute`, v1.py 311-357. -/
def Qco.editWeightAttribute (q : Qco κ) (attrs : Option (List κ)) (e : AttrEdit) : Option (Qco κ) :=
  (remapConfigs q.base (fun qc => editedAttrs qc attrs e) q.configs q.base).map
    (fun r => ⟨r.1, r.2⟩)

/-- The new attribute mapping of one configuration in `clone_and_map_weights_attr_keys`, v1.py 379-385:
two attributes mapped to one name leave the last of them. -/
def mappedAttrs (m : Option (Dict κ κ)) (attrs : Dict κ AttrCfg) : Dict κ AttrCfg :=
  match m with
  | none => attrs
  | some mm => Dict.ofItems (attrs.map (fun p => ((mm.get p.1).getD p.1, p.2)))

/-- `QuantizationConfigOptions.clone_and_map_weights_attr_keys`, v1.py 359-398. It cannot fail. -/
def Qco.mapAttrKeys (q : Qco κ) (m : Option (Dict κ κ)) : Qco κ :=
  match remapConfigs q.base (fun qc => some (mappedAttrs m qc.attrs)) q.configs q.base with
  | some r => ⟨r.1, r.2⟩
  | none => q

/-! ### The schema -/

/-- `OperatorsSet`, v1.py 422-438. -/
structure OpSet (κ : Type) where
  name : Name
  qco : Option (Qco κ)
  deriving DecidableEq, Repr

/-- A member of a fusing pattern: an `OperatorsSet` or an `OperatorSetGroup`, v1.py 422-490. -/
inductive OpGroup (κ : Type)
  | set (s : OpSet κ)
  | group (name : Name) (sets : List (OpSet κ))
  deriving DecidableEq, Repr

/-- The name of a member of a fusing pattern. -/
def OpGroup.name : OpGroup κ → Name
  | .set s => s.name
  | .group n _ => n

/-- `Fusing` of schema 1, v1.py 505-519. -/
structure FusingV1 (κ : Type) where
  groups : List (OpGroup κ)
  name : Name
  deriving DecidableEq, Repr

/-- `Fusing` of schema 2, v2.py 102-117. -/
structure Fusing (κ : Type) where
  groups : List (OpGroup κ)
  cfg : Option (OpCfg κ)
  name : Name
  deriving DecidableEq, Repr

/-- `TargetPlatformCapabilities` of schema 1, v1.py 605-633. -/
structure TpcV1 (κ : Type) where
  defaultQco : Qco κ
  opSets : Option (List (OpSet κ))
  fusing : Option (List (FusingV1 κ))
  minor : Option Nat
  patch : Option Nat
  platform : Option Name
  addMetadata : Bool
  name : Option Name
  simdPadding : Bool
  deriving DecidableEq, Repr

/-- `TargetPlatformCapabilities` of schema 2, v2.py 205-236. -/
structure TpcV2 (κ : Type) where
  defaultQco : Qco κ
  opSets : Option (List (OpSet κ))
  fusing : Option (List (Fusing κ))
  minor : Option Nat
  patch : Option Nat
  platform : Option Name
  addMetadata : Bool
  name : Option Name
  simdPadding : Bool
  insertPreserving : Bool
  deriving DecidableEq, Repr

/-- The check that a fusing pattern has two members or more, v1.py 547-555, v2.py 146-155. -/
def fusingOk (groups : List (OpGroup κ)) : Bool := decide (2 ≤ groups.length)

/-- `TargetPlatformCapabilities.validate_after_initialization`, v1.py 635-661, v2.py 238-264. -/
def tpcOk (defaultQco : Qco κ) (opSets : Option (List (OpSet κ))) : Bool :=
  decide (defaultQco.configs.length = 1) &&
    (match opSets with
     | none => true
     | some l => decide ((l.map (·.name)).Nodup))

/-- `"default_tpc"`, the default name of v1.py 625 and v2.py 227. -/
def defaultName : Name := ['d', 'e', 'f', 'a', 'u', 'l', 't', '_', 't', 'p', 'c']

/-- The configuration given to every fused operator by the upgrade, schema_compatability.py 59-70: the
default base configuration, with activation quantization disabled. -/
def fusedCfg (b : OpCfg κ) : OpCfg κ := { b with enableAct := false }

/-- `_schema_v1_to_v2`, schema_compatability.py 44-86. Iterating over `fusing_patterns` fails when it is
`None`; the constructors of schema 2 validate what they are given. The name and the SIMD padding flag
are not passed on, so that they take their defaults. -/
def v1ToV2 (t : TpcV1 κ) : Option (TpcV2 κ) :=
  match t.fusing with
  | none => none
  | some fs =>
    if fs.all (fun f => fusingOk f.groups) && tpcOk t.defaultQco t.opSets then
      some { defaultQco := t.defaultQco
             opSets := t.opSets
             fusing := some (fs.map (fun f => ⟨f.groups, some (fusedCfg t.defaultQco.base), f.name⟩))
             minor := t.minor
             patch := t.patch
             platform := t.platform
             addMetadata := t.addMetadata
             name := some defaultName
             simdPadding := false
             insertPreserving := false }
    else none

/-- A TPC of any schema version. -/
inductive AnyTpc (κ : Type)
  | v1 (t : TpcV1 κ)
  | v2 (t : TpcV2 κ)

/-- `tpc_to_current_schema_version`, schema_compatability.py 102-126: the loop runs the conversion of the
map until the TPC has the current schema; with two schemas it runs at most once. -/
def toCurrent : AnyTpc κ → Option (TpcV2 κ)
  | .v2 t => some t
  | .v1 t => v1ToV2 t

/-! ### Layer filters -/

/-- Values of layer attributes and of filters: a simplification of Python's objects to `None`, integers,
strings and tuples of integers. -/
inductive Val | none | int (i : Int) | str (s : Name) | tup (l : List Int)
  deriving DecidableEq, Repr

/-- The operators of attribute_filter.py 203-282. -/
inductive Op | gt | ge | lt | le | ne | eq | contains
  deriving DecidableEq, Repr

/-- Python's order on sequences: lexicographic, a proper prefix comes first. -/
def lexLt {α : Type} (lt : α → α → Bool) : List α → List α → Bool
  | [], [] => false
  | [], _ :: _ => true
  | _ :: _, [] => false
  | a :: as, b :: bs => if lt a b then true else if lt b a then false else lexLt lt as bs

/-- Python's `a < b`: defined for two values of the same ordered type, a `TypeError` otherwise. -/
def Val.lt? : Val → Val → Option Bool
  | .int a, .int b => some (decide (a < b))
  | .str a, .str b => some (lexLt (fun x y => decide (x < y)) a b)
  | .tup a, .tup b => some (lexLt (fun x y => decide (x < y)) a b)
  | _, _ => Option.none

/-- Python's `t in s` on strings. -/
def hasSub (s t : Name) : Bool := s.tails.any (fun u => t.isPrefixOf u)

/-- Python's `b in a`. -/
def Val.contains? : Val → Val → Option Bool
  | .tup l, .int i => some (decide (i ∈ l))
  | .tup _, _ => some false
  | .str s, .str t => some (hasSub s t)
  | _, _ => Option.none

/-- `op(a, b)` of the `operator` module. -/
def Op.apply : Op → Val → Val → Option Bool
  | .eq, a, b => some (decide (a = b))
  | .ne, a, b => some (decide (a ≠ b))
  | .lt, a, b => a.lt? b
  | .gt, a, b => b.lt? a
  | .le, a, b => (b.lt? a).map not
  | .ge, a, b => (a.lt? b).map not
  | .contains, a, b => a.contains? b

/-- A filter: an `AttributeFilter`, or an `OrAttributeFilter` or `AndAttributeFilter` with the identity of
the object, which is what Python compares for these two. attribute_filter.py 22-200. -/
inductive Cond
  | atom (attr : Name) (op : Op) (value : Val)
  | or (id : Nat) (l : List Cond)
  | and (id : Nat) (l : List Cond)

mutual
/-- `match` of the three classes of filters, attribute_filter.py 107-120, 146-161, 180-193. -/
def Cond.test (cfg : Dict Name Val) : Cond → Option Bool
  | .atom a op v =>
    match cfg.get a with
    | some w => op.apply w v
    | Option.none => some false
  | .or _ l => Cond.testOr cfg l
  | .and _ l => Cond.testAnd cfg l
/-- The loop of `OrAttributeFilter.match`, attribute_filter.py 158-161. -/
def Cond.testOr (cfg : Dict Name Val) : List Cond → Option Bool
  | [] => some false
  | c :: cs =>
    match Cond.test cfg c with
    | Option.none => Option.none
    | some true => some true
    | some false => Cond.testOr cfg cs
/-- The loop of `AndAttributeFilter.match`, attribute_filter.py 190-193. -/
def Cond.testAnd (cfg : Dict Name Val) : List Cond → Option Bool
  | [] => some true
  | c :: cs =>
    match Cond.test cfg c with
    | Option.none => Option.none
    | some false => some false
    | some true => Cond.testAnd cfg cs
end

/-- `AttributeFilter.__or__`, attribute_filter.py 78-91: only an `AttributeFilter` is accepted. The new
object has a fresh identity. -/
def Cond.mkOr (id : Nat) : Cond → Cond → Option Cond
  | .atom a o v, .atom b p w => some (.or id [.atom a o v, .atom b p w])
  | _, _ => Option.none

/-- `AttributeFilter.__and__`, attribute_filter.py 93-105. -/
def Cond.mkAnd (id : Nat) : Cond → Cond → Option Cond
  | .atom a o v, .atom b p w => some (.and id [.atom a o v, .atom b p w])
  | _, _ => Option.none

/-- `==` of filters: fields for attribute filters (attribute_filter.py 61-76), identity for the others. -/
def Cond.same : Cond → Cond → Bool
  | .atom a o v, .atom b p w => decide (a = b) && decide (v = w) && decide (o = p)
  | .or i _, .or j _ => decide (i = j)
  | .and i _, .and j _ => decide (i = j)
  | _, _ => false

/-- `LayerFilterParams`, layer_filter_params.py 19-37. -/
structure Lfp (ν : Type) where
  layer : ν
  conds : List Cond
  kwargs : Dict Name Val

variable {ν : Type} [DecidableEq ν]

/-- `LayerFilterParams.__eq__`, layer_filter_params.py 48-74: `zip` stops at the shorter list of
conditions, only the keywords of `self` are looked at, and the layer is not looked at. -/
def Lfp.same (a b : Lfp ν) : Bool :=
  (a.conds.zip b.conds).all (fun p => p.1.same p.2) &&
  a.kwargs.all (fun p => decide (b.kwargs.get p.1 = some p.2))

/-- How layers, values and conditions are printed. -/
structure Show (ν : Type) where
  layer : ν → Name
  val : Val → Name
  cond : Cond → Name

/-- `', '.join(l)`. -/
def commaJoin : List Name → Name
  | [] => []
  | [x] => x
  | x :: xs => x ++ [',', ' '] ++ commaJoin xs

/-- `LayerFilterParams.create_name`, layer_filter_params.py 76-86; it is what is hashed (39-46). -/
def Lfp.printed (s : Show ν) (f : Lfp ν) : Name :=
  s.layer f.layer ++ ['('] ++
    commaJoin (f.kwargs.map (fun p => p.1 ++ ['='] ++ s.val p.2) ++ f.conds.map s.cond) ++ [')']

/-- Whether two filters are the same key of a dictionary: equal hashes and `==`. A simplification: equal
hashes are taken to be equal printed forms. -/
def Lfp.sameKey (s : Show ν) (a b : Lfp ν) : Bool :=
  decide (a.printed s = b.printed s) && a.same b

/-- A node as far as the choice of its options is concerned: which types it matches (`is_match_type`,
base_node.py 646-656, overridden for functional nodes), its framework attributes, and the keyword
arguments of its call when it is a functional node. -/
structure Node (ν : Type) where
  fits : ν → Bool
  attrs : Dict Name Val
  callKwargs : Option (Dict Name Val)

/-- The configuration looked at by filters, base_node.py 677-680. -/
def Node.config (n : Node ν) : Dict Name Val :=
  match n.callKwargs with
  | Option.none => n.attrs
  | some kw => kw.foldl (fun d p => d.set p.1 p.2) n.attrs

/-- `BaseNode.is_match_filter_params`, base_node.py 658-690. A missing attribute reads as `None` for the
keyword arguments. -/
def Node.matchFilter (n : Node ν) (f : Lfp ν) : Option Bool :=
  if !n.fits f.layer then some false
  else if !(f.kwargs.all (fun p => decide ((n.config.get p.1).getD .none = p.2))) then some false
  else Cond.testAnd n.config f.conds

/-! ### Attaching layers to operator sets -/

/-- An entry of the list of layers of an operator set: a layer or a filter. -/
inductive LayerRef (ν : Type)
  | plain (l : ν)
  | filt (f : Lfp ν)

/-- Whether two entries are the same key of a dictionary. -/
def LayerRef.sameKey (s : Show ν) : LayerRef ν → LayerRef ν → Bool
  | .plain a, .plain b => decide (a = b)
  | .filt f, .filt g => f.sameKey s g
  | _, _ => false

/-- `OperationsSetToLayers`, operations_to_layers.py 27-45. `attrMap` gives, for the general name of an
attribute, its name in each layer (a `DefaultDict`, total). -/
structure OpLayers (κ ν : Type) where
  name : Name
  layers : List (LayerRef ν)
  attrMap : Option (Dict κ (LayerRef ν → κ))

/-- `get_config_options_by_operators_set`, schema_functions.py 35-51: it iterates over `operator_set`,
which fails when this is `None`. -/
def configOptions (t : TpcV2 κ) (name : Name) : Option (Option (Qco κ)) :=
  match t.opSets with
  | none => none
  | some l =>
    match l.find? (fun s => decide (s.name = name)) with
    | some s => some s.qco
    | none => some (some t.defaultQco)

/-- The loop of `OperationsToLayers.validate_op_sets` over the layers of one set,
operations_to_layers.py 145-152. -/
def validateLayers (s : Show ν) (t : TpcV2 κ) (name : Name) :
    List (LayerRef ν) → List (LayerRef ν) → Option (List (LayerRef ν))
  | [], seen => some seen
  | l :: ls, seen =>
    match configOptions t name with
    | none => none
    | some _ => if seen.any (fun k => k.sameKey s l) then none
                else validateLayers s t name ls (seen ++ [l])

/-- `OperationsToLayers.validate_op_sets`, operations_to_layers.py 127-152. -/
def validateOpSets (s : Show ν) (t : TpcV2 κ) :
    List (OpLayers κ ν) → List Name → List (LayerRef ν) → Option Unit
  | [], _, _ => some ()
  | o :: os, names, seen =>
    if o.name ∈ names then none
    else match validateLayers s t o.name o.layers seen with
      | none => none
      | some seen' => validateOpSets s t os (names ++ [o.name]) seen'

/-- The options of one layer of an operator set, framework_quantization_capabilities.py 197-208. -/
def layerOptions (t : TpcV2 κ) (o : OpLayers κ ν) (l : LayerRef ν) : Option (Qco κ) :=
  match configOptions t o.name with
  | none => none
  | some q =>
    some ((q.getD t.defaultQco).mapAttrKeys
      (o.attrMap.map (fun m => m.map (fun p => (p.1, p.2 l)))))

/-- `filterlayer2qco.update({l: qco})`: a key present keeps its place and its first object. -/
def setFilter (s : Show ν) (d : List (Lfp ν × Qco κ)) (f : Lfp ν) (q : Qco κ) :
    List (Lfp ν × Qco κ) :=
  if d.any (fun p => p.1.sameKey s f) then
    d.map (fun p => if p.1.sameKey s f then (p.1, q) else p)
  else d ++ [(f, q)]

/-- The two mappings from layers and from filters to options. -/
structure Mapping (κ ν : Type) where
  layers : Dict ν (Qco κ)
  filters : List (Lfp ν × Qco κ)

/-- The loop of `_get_config_options_mapping` over the layers of one operator set,
framework_quantization_capabilities.py 196-213. -/
def mapLayers (s : Show ν) (t : TpcV2 κ) (o : OpLayers κ ν) :
    List (LayerRef ν) → Mapping κ ν → Option (Mapping κ ν)
  | [], m => some m
  | l :: ls, m =>
    match layerOptions t o l with
    | none => none
    | some q =>
      mapLayers s t o ls
        (match l with
         | .plain x => ⟨m.layers.set x q, m.filters⟩
         | .filt f => ⟨m.layers, setFilter s m.filters f q⟩)

/-- `_get_config_options_mapping`, framework_quantization_capabilities.py 184-214. -/
def configMapping (s : Show ν) (t : TpcV2 κ) :
    List (OpLayers κ ν) → Mapping κ ν → Option (Mapping κ ν)
  | [], m => some m
  | o :: os, m =>
    match mapLayers s t o o.layers m with
    | none => none
    | some m' => configMapping s t os m'

/-- `OperationsToLayers.__add__` as used by `append_component`: the longer list is validated.
operations_to_layers.py 111-125, framework_quantization_capabilities.py 142-153. -/
def addOpLayers (s : Show ν) (t : TpcV2 κ) (os : List (OpLayers κ ν)) (o : OpLayers κ ν) :
    Option (List (OpLayers κ ν)) :=
  match validateOpSets s t (os ++ [o]) [] [] with
  | none => none
  | some _ => some (os ++ [o])

/-- What a framework knows of an operator set: layers and names of attributes, attach2fw.py 13-21 and
`CustomOpsetLayers`. -/
structure Known (κ ν : Type) where
  layers : List (LayerRef ν)
  attrMap : Option (Dict κ (LayerRef ν → κ))

/-- The loop of `AttachTpcToFramework.attach` over the operator sets, attach2fw.py 43-64: custom sets come
first, known sets without layers are skipped, unknown sets are an error. -/
def attachLoop (s : Show ν) (t : TpcV2 κ) (custom builtin : Dict Name (Known κ ν)) :
    List (OpSet κ) → List (OpLayers κ ν) → Option (List (OpLayers κ ν))
  | [], os => some os
  | p :: ps, os =>
    match custom.get p.name with
    | some k =>
      match addOpLayers s t os ⟨p.name, k.layers, k.attrMap⟩ with
      | none => none
      | some os' => attachLoop s t custom builtin ps os'
    | none =>
      match builtin.get p.name with
      | none => none
      | some k =>
        if k.layers.isEmpty then attachLoop s t custom builtin ps os
        else
          match addOpLayers s t os ⟨p.name, k.layers, k.attrMap⟩ with
          | none => none
          | some os' => attachLoop s t custom builtin ps os'

/-- `AttachTpcToFramework.attach`, attach2fw.py 23-66, with the mappings built when the block is left. -/
def attach (s : Show ν) (t : TpcV2 κ) (custom builtin : Dict Name (Known κ ν)) :
    Option (List (OpLayers κ ν) × Mapping κ ν) :=
  match attachLoop s t custom builtin (t.opSets.getD []) [] with
  | none => none
  | some os =>
    match configMapping s t os ⟨[], []⟩ with
    | none => none
    | some m => some (os, m)

/-- The entries of `filterlayer2qco` whose filter the node matches, load_fqc.py 97. -/
def matchingFilters (n : Node ν) : List (Lfp ν × Qco κ) → Option (List (Qco κ))
  | [] => some []
  | p :: ps =>
    match n.matchFilter p.1 with
    | none => none
    | some b =>
      match matchingFilters n ps with
      | none => none
      | some qs => some (if b then p.2 :: qs else qs)

/-- `any(qco != qcos[0] for qco in qcos[1:])`, load_fqc.py 99, 107. -/
def conflicting (qs : List (Qco κ)) : Bool :=
  match qs with
  | [] => false
  | q :: rest => rest.any (fun r => decide (r ≠ q))

/-- `fetch_qc_options_for_node`, load_fqc.py 82-118, with `return_default=True`. -/
def fetch (t : TpcV2 κ) (m : Mapping κ ν) (n : Node ν) : Option (Qco κ) :=
  match matchingFilters n m.filters with
  | none => none
  | some fq =>
    if conflicting fq then none
    else
      let qs := (m.layers.filter (fun p => n.fits p.1)).map (·.2)
      if conflicting qs then none
      else match fq with
        | q :: _ => some q
        | [] => match qs with
          | q :: _ => some q
          | [] => some t.defaultQco

/-! ### Fusing patterns -/

/-- `OperationsToLayers.get_layers_by_op` for an operator set, operations_to_layers.py 76-97. -/
def layersOfSet (os : List (OpLayers κ ν)) (name : Name) : List (LayerRef ν) :=
  match os.find? (fun o => decide (name = o.name)) with
  | some o => o.layers
  | none => []

/-- `OperationsToLayers.get_layers_by_op`, operations_to_layers.py 76-97: the name of a group is looked up
first, and only then its members. -/
def layersByOp (os : List (OpLayers κ ν)) (g : OpGroup κ) : List (LayerRef ν) :=
  match os.find? (fun o => decide (g.name = o.name)) with
  | some o => o.layers
  | none =>
    match g with
    | .set _ => []
    | .group _ sets => sets.flatMap (fun s => layersOfSet os s.name)

/-- `itertools.product`. -/
def product {α : Type} : List (List α) → List (List α)
  | [] => [[]]
  | l :: ls => l.flatMap (fun x => (product ls).map (fun r => x :: r))

/-- `FrameworkQuantizationCapabilities.get_fusing_patterns`,
framework_quantization_capabilities.py 100-119. -/
def fusingPatterns (t : TpcV2 κ) (os : List (OpLayers κ ν)) :
    List (List (LayerRef ν) × Option (OpCfg κ)) :=
  match t.fusing with
  | none => []
  | some fs => fs.flatMap (fun f =>
      (product (f.groups.map (layersByOp os))).map (fun x => (x, f.cfg)))

/-- One comparison in `Fusing.contains`, v2.py 172-175. -/
def groupCovers (a b : OpGroup κ) : Bool :=
  decide (a = b) ||
    (match a, b with
     | .group _ sets, .set s => decide (s ∈ sets)
     | _, _ => false)

/-- The inner loop of `Fusing.contains`: `other` matches `self` from here on. v2.py 171-178. -/
def coversFrom : List (OpGroup κ) → List (OpGroup κ) → Bool
  | _, [] => true
  | [], _ :: _ => false
  | a :: as, b :: bs => groupCovers a b && coversFrom as bs

/-- `Fusing.contains`, v2.py 157-181: the first offset at which `other` matches, among those that leave
room for it. -/
def contains (a b : List (OpGroup κ)) : Bool :=
  (List.range (a.length + 1 - b.length)).any (fun i => coversFrom (a.drop i) b)

end MCT.Tpc
