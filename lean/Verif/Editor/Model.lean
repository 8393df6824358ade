/-
Model of the network editor: filters that select layers, actions that change the quantization
configuration of the selected layers, the two passes of a list of edit rules over a graph and the choice of
the final configurations between them.

Sources (under /repo/model_compression_toolkit/core):
  common/network_editors/actions.py, node_filters.py, edit_network.py
  common/matchers/node_matcher.py, base_graph_filter.py 30-48
  common/quantization/node_quantization_config.py 50-72, 175-206, 284-302, 452-590
  common/quantization/quantization_params_fn_selection.py, quantization_fn_selection.py
  common/mixed_precision/bit_width_setter.py
  quantization_prep_runner.py 84, runner.py 154

A Python exception is the value `none`; it ends the whole quantization, so what it leaves behind is not
observed.  Warnings are not modelled.
-/
import Verif.Candidates.Model

namespace MCT.Editor
open MCT.Py MCT.Tpc MCT.Cand

/-- The classes of the configuration objects, node_quantization_config.py 82, 253, 377. -/
inductive Cls | act | wNode | wAttr
  deriving DecidableEq, Repr

/-- Names of the parameters of a configuration.  The ones that the code names are listed; the others are
`other i`; `method c i` is the name of a method of the class `c`, and `mappings` the name of one of the two
dictionaries of the weight attributes.  Names that begin with two underscores are left out. -/
inductive Param
  | actFn | actParamsFn | actMethod | actBits | actParams | quantMode
  | enableAct | preserving
  | wFn | wParamsFn | wMethod | wBits | enableW | wParams
  | mappings
  | method (c : Cls) (i : Nat)
  | other (i : Nat)
  deriving DecidableEq, Repr

/-- The functions that the selection functions return, quantization_params_fn_selection.py 31-82,
quantization_fn_selection.py 26-52, and `activation_quantizer_mapping` of the frameworks. -/
inductive Fn | actQuantizer (m : Method) | actParams (m : Method) | wQuantizer (m : Method) | kmeans
  | wParams (m : Method)
  deriving DecidableEq, Repr

/-- Values of parameters. -/
inductive Val
  | none
  | bool (b : Bool)
  | nat (n : Nat)
  | mode (m : Mode)
  | meth (m : Method)
  | fn (f : Fn)
  | user (n : Nat)
  deriving DecidableEq, Repr

/-- Truth of a value. -/
def Val.truthy : Val → Bool
  | .none => false
  | .bool b => b
  | .nat n => decide (n ≠ 0)
  | _ => true

/-- The values of the attributes of an object, `__dict__`. -/
abbrev Obj := Dict Param Val

/-- Properties without a setter: `enable_activation_quantization` and `quantization_preserving`,
node_quantization_config.py 144-150. -/
def isProperty (c : Cls) (p : Param) : Bool :=
  decide (c = .act) && (decide (p = .enableAct) || decide (p = .preserving))

/-- Methods of the class. -/
def isMethod (c : Cls) (p : Param) : Bool :=
  match p with
  | .method d _ => decide (d = c)
  | _ => false

/-- `hasattr(o, p)`. -/
def hasAttr (c : Cls) (o : Obj) (p : Param) : Bool := o.has p || isProperty c p || isMethod c p

/-- `BaseNodeQuantizationConfig.set_quant_config_attr`, node_quantization_config.py 54-71: `setattr` of a
property raises.  Replacing a whole dictionary of weight attributes is not modelled: it is rejected. -/
def setParam (c : Cls) (o : Obj) (p : Param) (v : Val) : Option Obj :=
  if c = .wNode ∧ p = .mappings then none
  else if hasAttr c o p then
    if isProperty c p then none else some (o.set p v)
  else some o

/-- `NodeWeightsQuantizationConfig`, node_quantization_config.py 377-444. -/
structure WObj where
  fields : Obj
  positional : Dict Nat Obj
  named : Dict Name Obj
  deriving DecidableEq, Repr

/-- The attribute whose configuration `get_attr_config` returns, node_quantization_config.py 452-485 and
`_extract_config_for_attributes_with_name` 544-560. -/
def WObj.resolve (w : WObj) : Attr → Option Attr
  | .pos i => if w.positional.has i then some (.pos i) else none
  | .named s =>
    match w.named.keys.filter (fun k => hasSub k s) with
    | [] => none
    | [k] => some (.named k)
    | _ => if w.named.has s then some (.named s) else none

/-- The configuration of an attribute. -/
def WObj.attr (w : WObj) : Attr → Option Obj
  | .pos i => w.positional.get i
  | .named s => w.named.get s

/-- Change the configuration of an attribute in place. -/
def WObj.update (w : WObj) (a : Attr) (o : Obj) : WObj :=
  match a with
  | .pos i => { w with positional := w.positional.set i o }
  | .named s => { w with named := w.named.set s o }

/-- Read the configuration of an attribute with `get_attr_config` and change it in place. -/
def WObj.change (w : WObj) (a : Attr) (f : Obj → Option Obj) : Option WObj :=
  (w.resolve a).bind fun k => (w.attr k).bind fun o => (f o).map fun o' => w.update k o'

/-- `NodeWeightsQuantizationConfig.set_quant_config_attr`, node_quantization_config.py 562-590.
`has_attribute_config`, 501-518, is false only if `get_attr_config` fails. -/
def WObj.setParam (w : WObj) (a : Option Attr) (p : Param) (v : Val) : Option WObj :=
  match a with
  | none => (Editor.setParam .wNode w.fields p v).map fun o => { w with fields := o }
  | some a => w.change a fun o => Editor.setParam .wAttr o p v

/-- `CandidateNodeQuantizationConfig`, candidate_node_quantization_config.py 24-34. -/
structure Cand where
  act : Obj
  wts : WObj
  deriving DecidableEq, Repr

/-- A final configuration of a node: absent, an object of its own, or the object of a candidate. -/
inductive Final (α : Type)
  | unset
  | own (c : α)
  | cand (i : Nat)
  deriving DecidableEq, Repr

/-- A type of layers, with the name of the type. -/
structure Ty where
  id : Nat
  name : Nat
  deriving DecidableEq, Repr

/-- What the editor sees of a node; `body` are the weights and the framework attributes. -/
structure Node (B : Type) where
  name : Name
  type : Ty
  functional : Bool
  kernel : Option Name
  body : B
  cands : List Cand
  finalA : Final Obj
  finalW : Final WObj

/-- The final activation configuration. -/
def Node.finalAct {B : Type} (n : Node B) : Option Obj :=
  match n.finalA with
  | .unset => none
  | .own c => some c
  | .cand i => (n.cands[i]?).map (·.act)

/-- The final weights configuration. -/
def Node.finalWts {B : Type} (n : Node B) : Option WObj :=
  match n.finalW with
  | .unset => none
  | .own c => some c
  | .cand i => (n.cands[i]?).map (·.wts)

/-! ### Filters -/

/-- Filters, node_filters.py 21-99 and node_matcher.py 20-89. -/
inductive Filter
  | type (t : Ty)
  | name (s : Name)
  | scope (s : Name)
  | and (a b : Filter)
  | or (a b : Filter)
  | not (a : Filter)
  | any
  deriving DecidableEq, Repr

/-- `is_match_type`, base_node.py 646-656 and functional_node.py 92-106. -/
def isMatchType {B : Type} (n : Node B) (t : Ty) : Bool :=
  decide (t = n.type) || (n.functional && decide (t.name = n.type.name))

/-- `apply` of the filters, up to the truth of its result: node_filters.py 34-45, 61-72, 88-99 and
node_matcher.py 54-55, 67-68, 76-77, 88-89. -/
def Filter.apply {B : Type} : Filter → Node B → Bool
  | .type t, n => if isMatchType n t then true else false
  | .name s, n => if n.name = s then true else false
  | .scope s, n => if hasSub n.name s then true else false
  | .and a b, n => a.apply n && b.apply n
  | .or a b, n => a.apply n || b.apply n
  | .not a, n => !a.apply n
  | .any, _ => true

/-! ### Actions -/

/-- The actions, actions.py 82-423. -/
inductive Action (B : Type)
  | candW (a : Option Attr) (kw : List (Param × Val))
  | finalW (a : Option Attr) (kw : List (Param × Val))
  | candA (kw : List (Param × Val))
  | finalA (kw : List (Param × Val))
  | paramsFn (a : Option Attr) (act wts : Option Fn)
  | finalAMethod (m : Option Method)
  | candAMethod (m : Option Method)
  | finalWMethod (a : Option Attr) (m : Option Method)
  | candWMethod (a : Option Attr) (m : Option Method)
  | replace (t : Ty) (f : B → Option Obj → B)

/-- `get_activation_quantization_params_fn`, quantization_params_fn_selection.py 31-52: there is none for a
symmetric LUT. -/
def actParamsFn : Method → Option Fn
  | .lutSym => none
  | m => some (.actParams m)

/-- `activation_quantizer_mapping` of the frameworks, keras/default_framework_info.py 109-112 and
pytorch/default_framework_info.py 87-90. -/
def actQuantizer : Method → Option Fn
  | .lutSym => none
  | m => some (.actQuantizer m)

/-- `get_weights_quantization_params_fn`, quantization_params_fn_selection.py 55-82. -/
def wParamsFn (m : Method) : Fn := .wParams m

/-- `get_weights_quantization_fn`, quantization_fn_selection.py 26-52. -/
def wQuantizer : Method → Fn
  | .lutPot => .kmeans
  | .lutSym => .kmeans
  | m => .wQuantizer m

/-- The loops over `kwargs.items()`, actions.py 108-110, 129-131, 155-156, 173-174. -/
def setAllA : List (Param × Val) → Obj → Option Obj
  | [], o => some o
  | (p, v) :: kw, o => (setParam .act o p v).bind (setAllA kw)

def setAllW (a : Option Attr) : List (Param × Val) → WObj → Option WObj
  | [], w => some w
  | (p, v) :: kw, w => (w.setParam a p v).bind (setAllW a kw)

/-- The changes of the activation methods, actions.py 245-256 and 282-295. -/
def setMethodA (m : Method) (o : Obj) : Option Obj :=
  (actParamsFn m).bind fun pf => (actQuantizer m).map fun qf =>
    ((o.set .actParamsFn (.fn pf)).set .actFn (.fn qf)).set .actMethod (.meth m)

/-- The changes of the weights methods, actions.py 325-340 and 371-385.  `get_attr_config(None)` raises. -/
def setMethodW (a : Option Attr) (m : Method) (w : WObj) : Option WObj :=
  a.bind fun a => w.change a fun o =>
    some (((o.set .wParamsFn (.fn (wParamsFn m))).set .wFn (.fn (wQuantizer m))).set .wMethod (.meth m))

/-- `ChangeQuantizationParamFunction.apply` on a candidate, actions.py 209-215. -/
def setFns (a : Option Attr) (act wts : Option Fn) (c : Cand) : Option Cand :=
  let act' := match act with
    | none => c.act
    | some f => c.act.set .actParamsFn (.fn f)
  match wts with
  | none => some { c with act := act' }
  | some f => (a.bind fun a => c.wts.change a fun o => some (o.set .wParamsFn (.fn f))).map
      fun w => ⟨act', w⟩

/-- Change all candidates of a node. -/
def onCands {B : Type} (f : Cand → Option Cand) (n : Node B) : Option (Node B) :=
  (n.cands.mapM f).map fun cs => { n with cands := cs }

/-- Change the activation configuration of a candidate. -/
def onAct (f : Obj → Option Obj) (c : Cand) : Option Cand := (f c.act).map fun o => { c with act := o }

/-- Change the weights configuration of a candidate. -/
def onWts (f : WObj → Option WObj) (c : Cand) : Option Cand := (f c.wts).map fun w => { c with wts := w }

/-- Change the final activation configuration in place, if there is one. -/
def onFinalA {B : Type} (f : Obj → Option Obj) (n : Node B) : Option (Node B) :=
  match n.finalA with
  | .unset => some n
  | .own c => (f c).map fun c' => { n with finalA := .own c' }
  | .cand i => (n.cands[i]?).bind fun c => (onAct f c).map fun c' => { n with cands := n.cands.set i c' }

/-- Change the final weights configuration in place, if there is one. -/
def onFinalW {B : Type} (f : WObj → Option WObj) (n : Node B) : Option (Node B) :=
  match n.finalW with
  | .unset => some n
  | .own c => (f c).map fun c' => { n with finalW := .own c' }
  | .cand i => (n.cands[i]?).bind fun c => (onWts f c).map fun c' => { n with cands := n.cands.set i c' }

/-- `apply` of the actions: actions.py 96-110, 127-131, 146-156, 171-174, 198-215, 233-256, 273-295,
315-340, 359-385, 403-423. -/
def Action.apply {B : Type} : Action B → Node B → Option (Node B)
  | .candW a kw, n => onCands (onWts (setAllW a kw)) n
  | .finalW a kw, n => onFinalW (setAllW a kw) n
  | .candA kw, n => onCands (onAct (setAllA kw)) n
  | .finalA kw, n => onFinalA (setAllA kw) n
  | .paramsFn a act wts, n => onCands (setFns a act wts) n
  | .finalAMethod none, n => some n
  | .finalAMethod (some m), n => onFinalA (setMethodA m) n
  | .candAMethod none, n => some n
  | .candAMethod (some m), n => onCands (onAct (setMethodA m)) n
  | .finalWMethod _ none, n => some n
  | .finalWMethod a (some m), n => onFinalW (setMethodW a m) n
  | .candWMethod _ none, n => some n
  | .candWMethod a (some m), n => onCands (onWts (setMethodW a m)) n
  | .replace t f, n => some { n with type := t, body := f n.body n.finalAct }

/-- `EditRule`, actions.py 32-58. -/
structure Rule (B : Type) where
  filter : Filter
  action : Action B

/-- One rule on one node. -/
def Rule.onNode {B : Type} (r : Rule B) (n : Node B) : Option (Node B) :=
  if r.filter.apply n then r.action.apply n else some n

/-- `edit_network_graph`, edit_network.py 21-38.  An action changes only the node it is applied to, so that
selecting the nodes before or while they are changed is the same. -/
def edit {B : Type} : List (Rule B) → List (Node B) → Option (List (Node B))
  | [], g => some g
  | r :: rs, g => (g.mapM r.onNode).bind (edit rs)

/-! ### The final configurations -/

/-- The quantization mode of all candidates, `_is_single_quant_mode`, base_node.py 182-191, before there is
a final configuration; `none` if they differ. -/
def singleMode (cs : List Cand) : Option Val :=
  match cs.map (fun c => c.act.get .quantMode) with
  | [] => none
  | v :: vs => if vs.all (fun u => decide (u = v)) then v else none

/-- `is_weights_quantization_enabled`, base_node.py 226-244, before there is a final configuration. -/
def enabledW (a : Attr) : List Cand → Option Bool
  | [] => some true
  | c :: cs => ((c.wts.resolve a).bind fun k => (c.wts.attr k).bind fun o => o.get .enableW).bind fun v =>
      (enabledW a cs).map fun b => v.truthy && b

/-- `has_any_weight_attr_to_quantize`, base_node.py 512-521, with `attrs` the weights of the node. -/
def anyEnabledW (cs : List Cand) : List Attr → Option Bool
  | [] => some false
  | a :: as => (enabledW a cs).bind fun b => (anyEnabledW cs as).map fun r => b || r

/-- `set_bit_widths` on a node without mixed precision, bit_width_setter.py 73-78. -/
def setSingle {B : Type} (n : Node B) : Option (Node B) :=
  match n.cands with
  | [c] => (singleMode n.cands).map fun m =>
      { n with finalW := .own c.wts
               finalA := if m = .mode .preserve then n.finalA else .own c.act }
  | _ => none

/-- `_set_node_final_qc`, bit_width_setter.py 83-133: the final configurations are the objects of the
chosen candidate, without a copy. -/
def setChosen {B : Type} (i : Nat) (n : Node B) : Option (Node B) :=
  (singleMode n.cands).bind fun m =>
    (if m = .mode .quant then some true
      else match n.kernel with
        | none => some false
        | some k => enabledW (.named k) n.cands).bind fun ok =>
      if ok && decide (i < n.cands.length) then some { n with finalW := .cand i, finalA := .cand i }
      else none

/-- A node that is not in the configuration of mixed precision, bit_width_setter.py 52-69. -/
def setFixed {B : Type} (attrs : List Attr) (n : Node B) : Option (Node B) :=
  (singleMode n.cands).bind fun m => (anyEnabledW n.cands attrs).bind fun e =>
    if m = .mode .quant ∨ e then
      match n.cands with
      | [] => none
      | c :: _ => some { n with finalA := if m = .mode .quant then .own c.act else n.finalA
                                finalW := if e then .own c.wts else n.finalW }
    else some n

/-- What `set_bit_widths` does with a node, bit_width_setter.py 37-79. -/
inductive Choice | single | chosen (i : Nat) | fixed (attrs : List Attr)
  deriving DecidableEq, Repr

def Choice.apply {B : Type} : Choice → Node B → Option (Node B)
  | .single, n => setSingle n
  | .chosen i, n => setChosen i n
  | .fixed attrs, n => setFixed attrs n

/-- The part of the core runner around the editor: the rules are applied to the graph before the
quantization parameters are computed (quantization_prep_runner.py 84) and, once the final configurations
are set (runner.py 141-143), again (runner.py 154).  `between` is what happens to the candidates of a node
between the first edit and the choice of the final configurations; `choice` is the result of the search. -/
def run {B : Type} (rules : List (Rule B)) (between : Node B → List Cand) (choice : Node B → Choice)
    (g : List (Node B)) : Option (List (Node B)) :=
  (edit rules g).bind fun g1 =>
    ((g1.map fun n => { n with cands := between n }).mapM fun n => (choice n).apply n).bind fun g2 =>
      edit rules g2

end MCT.Editor
