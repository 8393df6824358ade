/-
Model of the quantization candidates of the nodes: filtering the options of a node by its consumers, building
the candidates, the modes of preserving layers, fused layers, manual bit widths and the filtering of
candidates before the search.

Sources (under /repo/model_compression_toolkit):
  core/common/quantization/set_node_quantization_config.py, candidate_node_quantization_config.py,
    node_quantization_config.py, bit_width_config.py, filter_nodes_candidates.py
  quantization_preparation/load_fqc.py
  core/common/graph/base_graph.py 864-892, base_node.py 180-244, 632-729

A Python exception is the value `none`.  The options of a node are those found by `fetch_qc_options_for_node`
(modelled in `Verif/Tpc/Model.lean`).
-/
import Verif.Tpc.Model

namespace MCT.Cand
open MCT.Py MCT.Tpc

set_option linter.unusedSectionVars false
set_option linter.unusedVariables false

/-- The weight attributes of a node are named or positional, `WeightAttrT`. -/
inductive Attr
  | pos (i : Nat)
  | named (s : Name)
  deriving DecidableEq, Repr

/-- `POSITIONAL_ATTR`, target_platform_capabilities/constants.py 32. -/
def posAttr : Name := ['p', 'o', 's', '_', 'a', 't', 't', 'r']

/-- `ActivationQuantizationMode`, node_quantization_config.py 41-47. -/
inductive Mode | quant | flnQuant | preserve | noQuant | flnNoQuant
  deriving DecidableEq, Repr

/-- `NodeActivationQuantizationConfig`, node_quantization_config.py 79-135.  The quantization function and
the parameter function are those of a method, `fnMethod`.  The fields copied from `QuantizationConfig` are
`None` (or equal for all candidates) in the code modelled here, and are left out. -/
structure ActCfg where
  fnMethod : Method
  method : Method
  nBits : Nat
  mode : Mode
  signedness : Signedness
  deriving DecidableEq, Repr

/-- `NodeActivationQuantizationConfig.__eq__`, node_quantization_config.py 206-238: the signedness is not
compared. -/
def ActCfg.same (a b : ActCfg) : Bool :=
  a.fnMethod == b.fnMethod && a.method == b.method && a.nBits == b.nBits && a.mode == b.mode

/-- `WeightsAttrQuantizationConfig`, node_quantization_config.py 256-282.  The functions are those of the
method; the channel axis is the one of the node. -/
structure WAttr where
  method : Method
  nBits : Nat
  perChannel : Bool
  enabled : Bool
  deriving DecidableEq, Repr

/-- `NodeWeightsQuantizationConfig`, node_quantization_config.py 376-440. -/
structure WCfg where
  simd : Option Nat
  named : Dict Name WAttr
  positional : Dict Nat WAttr
  deriving DecidableEq, Repr

/-- Equality of two dictionaries. -/
def dictSame {κ α : Type} [DecidableEq κ] [DecidableEq α] (d e : Dict κ α) : Bool :=
  d.keys.all (fun k => decide (d.get k = e.get k)) && e.keys.all (fun k => decide (d.get k = e.get k))

/-- `NodeWeightsQuantizationConfig.__eq__`, node_quantization_config.py 590-612. -/
def WCfg.same (a b : WCfg) : Bool :=
  decide (a.simd = b.simd) && dictSame a.named b.named && dictSame a.positional b.positional

/-- `CandidateNodeQuantizationConfig`, candidate_node_quantization_config.py 23-34. -/
structure Cnd where
  act : ActCfg
  weights : WCfg
  deriving DecidableEq, Repr

def Cnd.same (a b : Cnd) : Bool := a.act.same b.act && a.weights.same b.weights

/-- `NodeQuantizationConfig`, candidate_node_quantization_config.py 41-48. -/
structure NodeCfg where
  base : Cnd
  cands : List Cnd
  deriving DecidableEq, Repr

/-! ### Building candidates -/

/-- The configuration of an attribute, node_quantization_config.py 395-436: the only key of the mapping
contained in the name of the attribute (`pos_attr` in the key for a positional one), else the default. -/
def attrCfgOf (op : OpCfg Name) (a : Attr) : Option AttrCfg :=
  let found := op.attrs.filter (fun p => match a with
    | .named s => hasSub s p.1
    | .pos _ => hasSub p.1 posAttr)
  match found with
  | [] => some op.defaultAttr
  | [p] => some p.2
  | _ => none

/-- `WeightsAttrQuantizationConfig.__init__`, node_quantization_config.py 260-282. -/
def mkWAttr (c : AttrCfg) : WAttr := ⟨c.method, c.nBits, c.perChannel, c.enabled⟩

/-- The loop of `NodeWeightsQuantizationConfig.__init__`, node_quantization_config.py 395-436. -/
def addAttrs (op : OpCfg Name) : List Attr → WCfg → Option WCfg
  | [], w => some w
  | a :: as, w =>
    match attrCfgOf op a with
    | none => none
    | some c =>
      match a with
      | .pos i => addAttrs op as { w with positional := w.positional.set i (mkWAttr c) }
      | .named s => addAttrs op as { w with named := w.named.set s (mkWAttr c) }

/-- `NodeWeightsQuantizationConfig.__init__`, node_quantization_config.py 382-440. -/
def mkWCfg (op : OpCfg Name) (attrs : List Attr) : Option WCfg := addAttrs op attrs ⟨op.simd, [], []⟩

/-- `NodeActivationQuantizationConfig.__init__`, node_quantization_config.py 83-115. -/
def mkAct (op : OpCfg Name) (fnMethod : Method) : Option ActCfg :=
  if op.enableAct && op.preserving then none
  else some
    { fnMethod := fnMethod
      method := op.actMethod
      nBits := op.actBits
      mode := if op.enableAct then .quant else if op.preserving then .preserve else .noQuant
      signedness := op.signedness }

/-- `_create_candidate`, load_fqc.py 196-230.  Activations have no symmetric LUT quantizer. -/
def mkCnd (op : OpCfg Name) (attrs : List Attr) : Option Cnd :=
  if op.actMethod = .lutSym then none
  else
    match mkAct op op.actMethod with
    | none => none
    | some a =>
      match mkWCfg op attrs with
      | none => none
      | some w => some ⟨a, w⟩

/-- `NodeWeightsQuantizationConfig.get_attr_config`, node_quantization_config.py 448-480. -/
def WCfg.getAttr (w : WCfg) : Attr → Option WAttr
  | .pos i => w.positional.get i
  | .named s =>
    match w.named.filter (fun p => hasSub p.1 s) with
    | [] => none
    | [p] => some p.2
    | _ => w.named.get s

/-- `get_weights_mode` in `_validate_consistent_weights_quant_mode`,
candidate_node_quantization_config.py 137-143: a dictionary, whose order does not matter. -/
def WCfg.mode (w : WCfg) : List (Attr × Option Bool) :=
  w.positional.keys.map (fun i => (.pos i, (w.getAttr (.pos i)).map (·.enabled))) ++
  w.named.keys.map (fun s => (.named s, (w.getAttr (.named s)).map (·.enabled)))

/-- `NodeQuantizationConfig.__post_init__`, candidate_node_quantization_config.py 105-116.  The copy of the
base configuration is not visible, because configurations are values here. -/
def mkNodeCfg (base : Cnd) (cands : List Cnd) : Option NodeCfg :=
  if cands.any (fun c => base.same c) = false then none
  else if cands.any (fun c => decide (c.act.mode ≠ base.act.mode)) then none
  else if cands.any (fun c => !dictSame base.weights.mode c.weights.mode) then none
  else some ⟨base, cands⟩

/-- The key of `sort_node_candidates`, base_node.py 722-729. -/
def sortKey (kernel : Option Name) (c : Cnd) : Option (Nat × Nat) :=
  match kernel with
  | none => some (c.act.nBits, 0)
  | some k => (c.weights.getAttr (.named k)).map (fun w => (w.nBits, c.act.nBits))

/-- Order of the keys, as pairs. -/
def keyLe (a b : Nat × Nat) : Bool := decide (a.1 < b.1 ∨ a.1 = b.1 ∧ a.2 ≤ b.2)

/-- Keys of all candidates; an unknown kernel is an error. -/
def withKeys (kernel : Option Name) : List Cnd → Option (List ((Nat × Nat) × Cnd))
  | [] => some []
  | c :: cs =>
    match sortKey kernel c with
    | none => none
    | some k => (withKeys kernel cs).map (fun r => (k, c) :: r)

/-- Insertion in a list sorted from the largest key, after the entries with an equal key. -/
def insertDesc (x : (Nat × Nat) × Cnd) : List ((Nat × Nat) × Cnd) → List ((Nat × Nat) × Cnd)
  | [] => [x]
  | y :: ys => if keyLe y.1 x.1 then x :: y :: ys else y :: insertDesc x ys

/-- `sort_node_candidates`, base_node.py 712-729: a stable sort by descending key. -/
def sortCands (kernel : Option Name) (cs : List Cnd) : Option (List Cnd) :=
  (withKeys kernel cs).map (fun ks => (ks.foldr insertDesc []).map (·.2))

/-! ### Filtering options by the consumers -/

/-- What the functions below read of a node. -/
structure GNode where
  options : Option (Qco Name)
  attrs : List Attr
  kernel : Option Name
  hasAct : Bool

/-- What the functions below read of a graph. -/
structure GGraph where
  order : List Nat
  next : Nat → List Nat
  prev : Nat → List Nat
  info : Nat → GNode

/-- The loop that collects the consumers through preserving nodes, set_node_quantization_config.py 56-69.
Without fuel left the result is `none`: the loop of the code does not end on a cyclic graph. -/
def gather (g : GGraph) : Nat → List Nat → List Nat → Option (List Nat)
  | _, [], acc => some acc
  | 0, _ :: _, _ => none
  | f + 1, n :: w, acc =>
    match (g.info n).options with
    | none => none
    | some q =>
      match q.configs with
      | [] => none
      | c :: _ => gather g f (if c.preserving then w ++ g.next n else w) (acc ++ [n])

/-- The options of the consumers, set_node_quantization_config.py 74. -/
def optionsOf (g : GGraph) : List Nat → Option (List (Qco Name))
  | [] => some []
  | n :: ns =>
    match (g.info n).options with
    | none => none
    | some q => (optionsOf g ns).map (fun r => q :: r)

/-- `max_input_activation_n_bits`, schema_functions.py 22-31. -/
def maxIn (c : OpCfg Name) : Option Nat :=
  match c.inBits with
  | [] => none
  | b :: bs => some (bs.foldl max b)

/-- `maxIn` of each configuration. -/
def maxIns : List (OpCfg Name) → Option (List Nat)
  | [] => some []
  | c :: cs =>
    match maxIn c with
    | none => none
    | some b => (maxIns cs).map (fun r => b :: r)

/-- The option with the largest number of activation bits, the last among equals,
set_node_quantization_config.py 93-96: a dictionary from the number of bits to the index. -/
def lastMax (c : OpCfg Name) (cs : List (OpCfg Name)) : OpCfg Name :=
  cs.foldl (fun best d => if best.actBits ≤ d.actBits then d else best) c

/-- `filter_node_qco_by_graph` for the consumers found, set_node_quantization_config.py 71-102. -/
def filterBy (q : Qco Name) (qs : List (Qco Name)) : Option (OpCfg Name × List (OpCfg Name)) :=
  if qs.isEmpty then some (q.base, q.configs)
  else
    match maxIns ((qs.flatMap (·.configs)).filter (fun c => c.enableAct || c.preserving)) with
    | none => none
    | some [] => some (q.base, q.configs)
    | some (b :: bs) =>
      match q.configs.filter (fun c => decide (c.actBits ≤ bs.foldl min b)) with
      | [] => none
      | c :: cs =>
        match maxIns (qs.map (·.base)) with
        | none => none
        | some ms =>
          if ms.any (fun m => decide (m < q.base.actBits)) then some (lastMax c cs, c :: cs)
          else some (q.base, c :: cs)

/-- `filter_node_qco_by_graph`, set_node_quantization_config.py 31-102. -/
def filterQco (g : GGraph) (fuel : Nat) (n : Nat) (q : Qco Name) :
    Option (OpCfg Name × List (OpCfg Name)) :=
  match gather g fuel (g.next n) [] with
  | none => none
  | some ms =>
    match optionsOf g ms with
    | none => none
    | some qs => filterBy q qs

/-! ### Setting the configurations of the nodes -/

/-- Candidates of the options, load_fqc.py 66-67. -/
def mkCnds (attrs : List Attr) : List (OpCfg Name) → Option (List Cnd)
  | [] => some []
  | o :: os =>
    match mkCnd o attrs with
    | none => none
    | some c => (mkCnds attrs os).map (fun r => c :: r)

/-- `NodeQuantizationConfig.update_activation_quantization_mode`,
candidate_node_quantization_config.py 62-72. -/
def Cnd.setMode (m : Mode) (c : Cnd) : Cnd := { c with act := { c.act with mode := m } }
def NodeCfg.setMode (m : Mode) (c : NodeCfg) : NodeCfg := ⟨c.base.setMode m, c.cands.map (Cnd.setMode m)⟩

/-- `NodeQuantizationConfig.get_activation_quant_mode`, candidate_node_quantization_config.py 80-91. -/
def NodeCfg.mode? (c : NodeCfg) : Option Mode :=
  if c.cands.any (fun d => decide (d.act.mode ≠ c.base.act.mode)) then none else some c.base.act.mode

/-- The part of `set_quantization_configs_to_node` that does not look at the previous nodes,
load_fqc.py 61-77. -/
def nodeCfg (g : GGraph) (fuel : Nat) (n : Nat) : Option NodeCfg :=
  match (g.info n).options with
  | none => none
  | some q =>
    match filterQco g fuel n q with
    | none => none
    | some (b, os) =>
      match mkCnds (g.info n).attrs os with
      | none => none
      | some cs =>
        match mkCnd b (g.info n).attrs with
        | none => none
        | some sp =>
          match mkNodeCfg sp cs with
          | none => none
          | some cfg =>
            match sortCands (g.info n).kernel cfg.cands with
            | none => none
            | some sorted =>
              if (g.info n).hasAct then some ⟨cfg.base, sorted⟩
              else some (NodeCfg.setMode .noQuant ⟨cfg.base, sorted⟩)

/-- `_disable_unsupported_quant_preserving`, load_fqc.py 161-181, with the configurations set so far. -/
def disablePreserving (g : GGraph) (done : Dict Nat NodeCfg) (n : Nat) (cfg : NodeCfg) : Option NodeCfg :=
  match cfg.mode? with
  | none => none
  | some m =>
    if m ≠ .preserve then some cfg
    else
      match g.prev n with
      | [p] =>
        match done.get p with
        | none => none
        | some pc =>
          match pc.mode? with
          | none => none
          | some pm => if pm = .noQuant then some (cfg.setMode .noQuant) else some cfg
      | _ => some (cfg.setMode .noQuant)

/-- `_set_nodes_quantization_configuration` in topological order, load_fqc.py 122-140.  The validation of
custom layers comes before and is not modelled. -/
def loadNodes (g : GGraph) (fuel : Nat) : List Nat → Dict Nat NodeCfg → Option (Dict Nat NodeCfg)
  | [], done => some done
  | n :: ns, done =>
    match nodeCfg g fuel n with
    | none => none
    | some cfg =>
      match disablePreserving g done n cfg with
      | none => none
      | some cfg' => loadNodes g fuel ns (done.set n cfg')

/-! ### Fused layers -/

/-- `NodeQuantizationConfig.remove_duplicates`, candidate_node_quantization_config.py 93-103, with any
comparison. -/
def dedupBy {α : Type} (same : α → α → Bool) : List α → List α → List α
  | [], acc => acc
  | c :: cs, acc => if acc.any (fun u => same c u) then dedupBy same cs acc else dedupBy same cs (acc ++ [c])

/-- The new activation configuration of one candidate of an inner fused layer, base_graph.py 875-881: the
functions stay those of the former method. -/
def fusedAct (f : OpCfg Name) (c : Cnd) : Option Cnd :=
  match mkAct f c.act.fnMethod with
  | none => none
  | some a => some { c with act := { a with mode := .flnQuant } }

/-- `fusedAct` of each candidate. -/
def fusedActs (f : OpCfg Name) : List Cnd → Option (List Cnd)
  | [] => some []
  | c :: cs =>
    match fusedAct f c with
    | none => none
    | some d => (fusedActs f cs).map (fun r => d :: r)

/-- One node of `override_fused_node_activation_quantization_candidates`, base_graph.py 871-892. -/
def overrideFused (f : Option (OpCfg Name)) (c : NodeCfg) : Option NodeCfg :=
  match f.filter (·.enableAct) with
  | some f =>
    match fusedAct f c.base with
    | none => none
    | some b => (fusedActs f c.cands).map (fun cs => ⟨b, dedupBy Cnd.same cs []⟩)
  | none =>
    let d := c.setMode .flnNoQuant
    some ⟨d.base, dedupBy (fun x y => x.weights.same y.weights) d.cands []⟩

/-! ### Manual bit widths -/

/-- `BitWidthConfig._expand_to_list_core`, bit_width_config.py 125-146, for lists. -/
def expandTo {α : Type} (nFilters : Nat) (vals : List α) : Option (List α) :=
  if 1 < vals.length ∧ vals.length ≠ nFilters then none
  else
    match vals with
    | [v] => if 1 < nFilters then some (List.replicate nFilters v) else some vals
    | _ => some vals

/-- `ManualBitWidthSelection` and `ManualWeightsBitWidthSelection`, bit_width_config.py 26-48; a filter is
the set of nodes it selects. -/
structure ActSel where
  filter : Nat → Bool
  bits : Nat

structure WSel where
  filter : Nat → Bool
  bits : Nat
  attr : Name

/-- `set_manual_activation_bit_width`, bit_width_config.py 61-77. -/
def addActSels (sels : List ActSel) (filters : List (Nat → Bool)) (bits : List Nat) : Option (List ActSel) :=
  (expandTo filters.length bits).map (fun bs => sels ++ (bs.zip filters).map (fun p => ⟨p.2, p.1⟩))

/-- `set_manual_weights_bit_width`, bit_width_config.py 79-97. -/
def addWSels (sels : List WSel) (filters : List (Nat → Bool)) (bits : List Nat) (attrs : List Name) :
    Option (List WSel) :=
  match expandTo filters.length bits with
  | none => none
  | some bs =>
    (expandTo filters.length attrs).map
      (fun as => sels ++ (as.zip (bs.zip filters)).map (fun p => ⟨p.2.2, p.2.1, p.1⟩))

/-- `_construct_node_to_new_activation_bit_mapping`, bit_width_config.py 169-193. -/
def actMapping (nodes : List Nat) : List ActSel → Dict Nat Nat → Option (Dict Nat Nat)
  | [], d => some d
  | s :: ss, d =>
    match nodes.filter s.filter with
    | [] => none
    | n :: ns => actMapping nodes ss ((n :: ns).foldl (fun d n => d.set n s.bits) d)

/-- An attribute of the node fits the attribute of a selection, bit_width_config.py 221-230. -/
def attrFits (sel : Name) : Attr → Bool
  | .named s => hasSub s sel
  | .pos _ => hasSub sel posAttr

/-- The loop over the selections recorded for a node, bit_width_config.py 234-240: `attr_to_bitwidth[1]`
is the second character of a recorded attribute, and the deletion uses its position as key; both can fail
and nothing is ever deleted. -/
def overrideOk (d : Dict Name Nat) (attr : Name) : Bool :=
  d.keys.all (fun k => match k with
    | _ :: c :: _ => decide ([c] ≠ attr)
    | _ => false)

/-- The body of the loop over the filtered nodes, bit_width_config.py 212-243. -/
def addWNodes (attrsOf : Nat → List Attr) (s : WSel) :
    List Nat → Dict Nat (Dict Name Nat) → Option (Dict Nat (Dict Name Nat))
  | [], d => some d
  | n :: ns, d =>
    if (attrsOf n).any (attrFits s.attr) = false then none
    else
      let old := (d.get n).getD []
      if overrideOk old s.attr = false then none
      else addWNodes attrsOf s ns (d.set n (old.set s.attr s.bits))

/-- `_construct_node_to_new_weights_bit_mapping`, bit_width_config.py 195-245. -/
def wMapping (attrsOf : Nat → List Attr) (nodes : List Nat) :
    List WSel → Dict Nat (Dict Name Nat) → Option (Dict Nat (Dict Name Nat))
  | [], d => some d
  | s :: ss, d =>
    match nodes.filter s.filter with
    | [] => none
    | n :: ns =>
      match addWNodes attrsOf s (n :: ns) d with
      | none => none
      | some d' => wMapping attrsOf nodes ss d'

/-- One node of `_set_manual_activation_bitwidths`, set_node_quantization_config.py 124-152. -/
def manualAct (c : NodeCfg) (bits : Nat) : Option NodeCfg :=
  if c.mode? ≠ some .quant then none
  else
    match c.cands.filter (fun d => decide (d.act.nBits = bits)) with
    | [] => none
    | d :: ds => some ⟨{ c.base with act := { c.base.act with nBits := bits } }, d :: ds⟩

/-- `qc_attr_nbits`, set_node_quantization_config.py 169-187. -/
def attrBits (c : Cnd) (attr : Name) : Option Nat :=
  if attr = posAttr then
    match c.weights.positional with
    | [] => none
    | p :: ps =>
      if (p :: ps).any (fun q => !q.2.enabled) then none
      else if ps.any (fun q => decide (q.2.nBits ≠ p.2.nBits)) then none
      else some p.2.nBits
  else if attr ∈ c.weights.named.keys then
    match c.weights.getAttr (.named attr) with
    | none => none
    | some w => if w.enabled then some w.nBits else none
  else none

/-- `all(qc_attr_nbits(...) == ... for ...)` with its short cut, set_node_quantization_config.py 190-191. -/
def fitsManual (c : Cnd) : Dict Name Nat → Option Bool
  | [] => some true
  | (a, b) :: rest =>
    match attrBits c a with
    | none => none
    | some b' => if b' = b then fitsManual c rest else some false

/-- The candidates that fit, set_node_quantization_config.py 190-191. -/
def manualCands (d : Dict Name Nat) : List Cnd → Option (List Cnd)
  | [] => some []
  | c :: cs =>
    match fitsManual c d with
    | none => none
    | some b => (manualCands d cs).map (fun r => if b then c :: r else r)

/-- Writing the bits in the base configuration, set_node_quantization_config.py 196-203. -/
def setBaseBits (w : WCfg) (a : Name) (b : Nat) : Option WCfg :=
  if a = posAttr then
    some { w with positional := w.positional.map (fun p => (p.1, { p.2 with nBits := b })) }
  else
    match w.named.filter (fun p => hasSub p.1 a) with
    | [] => none
    | [p] => some { w with named := w.named.map (fun q => if q.1 = p.1 then (q.1, { q.2 with nBits := b }) else q) }
    | _ =>
      if a ∈ w.named.keys then
        some { w with named := w.named.map (fun q => if q.1 = a then (q.1, { q.2 with nBits := b }) else q) }
      else none

/-- Writing all bits in the base configuration. -/
def setAllBits : Dict Name Nat → WCfg → Option WCfg
  | [], w => some w
  | (a, b) :: rest, w =>
    match setBaseBits w a b with
    | none => none
    | some w' => setAllBits rest w'

/-- One node of `_set_manual_weights_bitwidths`, set_node_quantization_config.py 189-203. -/
def manualWeights (c : NodeCfg) (d : Dict Name Nat) : Option NodeCfg :=
  match manualCands d c.cands with
  | none => none
  | some [] => none
  | some (x :: xs) =>
    (setAllBits d c.base.weights).map (fun w => ⟨{ c.base with weights := w }, x :: xs⟩)

/-! ### Filtering candidates -/

/-- `FLOAT_BITWIDTH`, constants.py. -/
def floatBits : Nat := 32

/-- The kernel configuration set to float, filter_nodes_candidates.py 88-91 and 138-141. -/
def floatKernel (kernel : Option Name) (c : Cnd) : Option Cnd :=
  match kernel with
  | none => some c
  | some k =>
    match c.weights.named.filter (fun p => hasSub p.1 k) with
    | [] => none
    | [p] => some { c with weights := { c.weights with named := c.weights.named.map (fun q =>
        if q.1 = p.1 then (q.1, { q.2 with nBits := floatBits, method := .pot }) else q) } }
    | _ =>
      if k ∈ c.weights.named.keys then
        some { c with weights := { c.weights with named := c.weights.named.map (fun q =>
          if q.1 = k then (q.1, { q.2 with nBits := floatBits, method := .pot }) else q) } }
      else none

/-- `floatKernel` of each candidate. -/
def floatKernels (kernel : Option Name) : List Cnd → Option (List Cnd)
  | [] => some []
  | c :: cs =>
    match floatKernel kernel c with
    | none => none
    | some d => (floatKernels kernel cs).map (fun r => d :: r)

/-- The activation set to float, filter_nodes_candidates.py 84-86 and 105-107. -/
def floatAct (c : Cnd) : Cnd := { c with act := { c.act with nBits := floatBits, method := .pot } }

/-- The combination compared by `_filter_bit_method_dups`, filter_nodes_candidates.py 53-61. -/
structure Comb where
  kernel : Option (Nat × Method)
  bits : Nat
  method : Method
  deriving DecidableEq, Repr

def combOf (kernel : Option Name) (c : Cnd) : Option Comb :=
  match kernel with
  | none => some ⟨none, c.act.nBits, c.act.method⟩
  | some k =>
    match c.weights.getAttr (.named k) with
    | none => none
    | some w => some ⟨some (w.nBits, w.method), c.act.nBits, c.act.method⟩

/-- `_filter_bit_method_dups`, filter_nodes_candidates.py 41-66. -/
def filterDups (kernel : Option Name) : List Cnd → List Comb → Option (List Cnd)
  | [], _ => some []
  | c :: cs, seen =>
    match combOf kernel c with
    | none => none
    | some k =>
      if k ∈ seen then filterDups kernel cs seen
      else (filterDups kernel cs (k :: seen)).map (fun r => c :: r)

/-- `_is_single_quant_mode` of the candidates, base_node.py 180-191: they must share one mode. -/
def modeOf (cs : List Cnd) : Option Mode :=
  match cs with
  | [] => none
  | c :: rest => if rest.all (fun d => decide (d.act.mode = c.act.mode)) then some c.act.mode else none

/-- `is_weights_quantization_enabled` of the kernel, base_node.py 223-244, without a final configuration. -/
def kernelEnabled (k : Name) : List Cnd → Option Bool
  | [] => some true
  | c :: cs =>
    match c.weights.getAttr (.named k) with
    | none => none
    | some w => (kernelEnabled k cs).map (fun r => w.enabled && r)

/-- `node.kernel_attr is None or not node.is_weights_quantization_enabled(node.kernel_attr)`. -/
def noKernel (kernel : Option Name) (cs : List Cnd) : Option Bool :=
  match kernel with
  | none => some true
  | some k => (kernelEnabled k cs).map (fun b => !b)

/-- `filter_node_candidates`, filter_nodes_candidates.py 69-145. -/
def filterCands (kernel : Option Name) (cs : List Cnd) : Option (List Cnd) :=
  match noKernel kernel cs with
  | none => none
  | some nk =>
    match cs, modeOf cs with
    | c :: _, some m =>
      if nk && decide (m = .noQuant) then (floatKernel kernel (floatAct c)).map (fun d => [d])
      else if m = .noQuant then
        filterDups kernel ((dedupBy (fun x y => x.weights.same y.weights) cs []).map floatAct) []
      else if m = .flnNoQuant ∨ m = .flnQuant then
        filterDups kernel (dedupBy (fun x y => x.weights.same y.weights) cs []) []
      else if nk then
        match floatKernels kernel (dedupBy (fun x y => x.act.same y.act) cs []) with
        | none => none
        | some ds => filterDups kernel ds []
      else some cs
    | _, _ => none

end MCT.Cand
