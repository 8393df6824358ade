/-
Model of the fused operations: how they are generated, recorded, validated, updated by shift
negative correction and replaced by single nodes.

Sources (all under /repo/model_compression_toolkit/core/common):
  fusion/fusing_info.py                              FusingInfo, FusingInfoGenerator, is_valid_fusion
  fusion/graph_fuser.py                              GraphFuser
  substitutions/shift_negative_activation.py         fuse_padding_with_op2d, update_fused_op_with_add

The graph is that of `Verif.Graph.Model`.  A Python exception (including a failed assertion) is the
value `none`.
-/
import Verif.Graph.Walk

namespace MCT.Fusing
open MCT.Graph

set_option linter.unusedSectionVars false
set_option linter.unusedVariables false

/-- Names of nodes and of fused operations are strings, here lists of characters. -/
abbrev Name := List Char

/-- A Python dictionary with string keys: the pairs in insertion order. -/
abbrev Dict (α : Type) := List (Name × α)

namespace Dict
variable {α : Type}

/-- `d.get(k)`. -/
def get (d : Dict α) (k : Name) : Option α := List.lookup k d
/-- `k in d`. -/
def has (d : Dict α) (k : Name) : Bool := (d.get k).isSome
/-- `d[k] = v`: a present key keeps its place. -/
def set (d : Dict α) (k : Name) (v : α) : Dict α :=
  if d.has k then d.map (fun p => if p.1 = k then (k, v) else p) else d ++ [(k, v)]
/-- `d.pop(k, None)` and `del d[k]`. -/
def pop (d : Dict α) (k : Name) : Dict α := d.filter (fun p => decide (p.1 ≠ k))
end Dict

/-- One fusing pattern: the layers and the quantization configuration of the fused operation, `none`
when the pattern has none. fusing_info.py 516-526 with the keys `FUSED_LAYER_PATTERN` and
`FUSED_OP_QUANT_CONFIG`. -/
structure Pattern (P C : Type) where
  layers : List P
  cfg : Option C
  deriving DecidableEq, Repr

/-- What the functions ask of nodes and patterns: the name of a node, and whether a node matches a layer
of a pattern, by its type or by its filter (fusing_info.py 476-478, 508-510). -/
structure Setup (N P : Type) where
  name : N → Name
  fits : P → N → Bool

/-- The fields of `FusingInfo` (fusing_info.py 46-50). `fusing_data` is `data`,
`node_name_to_fused_op_id` is `map`, `fused_op_id_to_quant_config` is `cfgs`. -/
structure Info (N P C : Type) where
  patterns : List (Pattern P C)
  manual : List (List Name)
  data : Dict (List N)
  map : Dict Name
  cfgs : Dict (Option C)
  deriving DecidableEq, Repr

variable {N P C : Type} [DecidableEq N] [DecidableEq C]

/-- `generate_fused_op_id` (fusing_info.py 257-271): the prefix and the names joined with underscores. -/
def fusedId (S : Setup N P) (nodes : List N) : Name :=
  ['F', 'u', 's', 'e', 'd', 'N', 'o', 'd', 'e', '_'] ++ ['_'].intercalate (nodes.map S.name)

/-- `get_valid_fusing_patterns_for_node` (fusing_info.py 460-482). -/
def validPatterns (S : Setup N P) (ps : List (List P)) (n : N) (i : Nat) : List (List P) :=
  ps.filter (fun p => match p[i]? with
    | some l => S.fits l n
    | none => false)

/-- `is_valid_fusion` (fusing_info.py 485-513). The number of layers that match is counted and compared
with the number of nodes, which is the same as asking all of them to match. -/
def isValidFusion (S : Setup N P) (ps : List (List P)) (nodes : List N) (manual : List (List Name)) :
    Bool :=
  if manual.any (fun m => decide (m = nodes.map S.name)) then true
  else if nodes.length ≤ 1 then false
  else ps.any (fun p => decide (nodes.length = p.length) &&
    (List.zipWith S.fits p nodes).all (fun b => b))

/-- The inner loop of `generate_fusing_info` (fusing_info.py 423-430) from index `i` at node `n`, with
`fuel` rounds left: it collects nodes while some pattern agrees with all of them, and stops after a node
without exactly one outgoing edge. -/
def collect (S : Setup N P) (g : Gr N) : Nat → Nat → List (List P) → N → List N
  | 0, _, _, _ => []
  | fuel + 1, i, ps, n =>
    let ps' := validPatterns S ps n i
    if ps'.length = 0 then []
    else match nextNodes g n with
      | [m] => n :: collect S g fuel (i + 1) ps' m
      | _ => [n]

/-- The longest pattern (fusing_info.py 405). -/
def maxLen (ps : List (List P)) : Nat := ps.foldl (fun a p => max a p.length) 0

/-- One round of the outer loop of `generate_fusing_info` (fusing_info.py 414-437): the fused operations
found so far, and the nodes in them. -/
def genStep (S : Setup N P) (g : Gr N) (ps : List (List P)) (st : Dict (List N) × List N) (n : N) :
    Option (Dict (List N) × List N) :=
  if n ∈ st.2 then some st
  else
    let w := collect S g (maxLen ps) 0 ps n
    if isValidFusion S ps w [] then
      if st.1.has (fusedId S w) then none
      else some (st.1 ++ [(fusedId S w, w)], st.2 ++ w)
    else some st

/-- The nodes of one manual fused operation (fusing_info.py 440-444): each name must be that of exactly
one node. -/
def manualNodes (S : Setup N P) (g : Gr N) (names : List Name) : Option (List N) :=
  names.mapM (fun nm => match g.nodes.filter (fun n => decide (S.name n = nm)) with
    | [n] => some n
    | _ => none)

/-- One round of the loop over the manual fused operations (fusing_info.py 439-455). -/
def manualStep (S : Setup N P) (g : Gr N) (d : Dict (List N)) (names : List Name) :
    Option (Dict (List N)) := do
  let nodes ← manualNodes S g names
  let d : Dict (List N) := d.filter (fun p => !(nodes.any (fun n => decide (n ∈ p.2))))
  if d.has (fusedId S nodes) then none else some (d ++ [(fusedId S nodes, nodes)])

/-- `set_fused_op_quantization_config` (fusing_info.py 122-132): the configuration of the first pattern
that matches the nodes; nothing is recorded when no pattern does. -/
def setCfg (S : Setup N P) (info : Info N P C) (id : Name) (nodes : List N) : Info N P C :=
  match info.patterns.find? (fun p => isValidFusion S [p.layers] nodes []) with
  | some p => { info with cfgs := info.cfgs.set id p.cfg }
  | none => info

/-- `self.node_name_to_fused_op_id[node.name] = op_id` for each node. -/
def mapNodes (S : Setup N P) (m : Dict Name) (id : Name) (nodes : List N) : Dict Name :=
  nodes.foldl (fun m n => m.set (S.name n) id) m

/-- The constructor of `FusingInfo` with its `__post_init__` (fusing_info.py 52-73, 95-102): every
operation must have the prefix and more than one node. The test that the nodes are in a tuple is not
modelled. -/
def mkInfo (S : Setup N P) (patterns : List (Pattern P C)) (manual : List (List Name))
    (data : Dict (List N)) : Option (Info N P C) :=
  if data.all (fun p => decide (fusedId (N := N) S [] <+: p.1) && decide (1 < p.2.length)) then
    let map := data.foldl (fun m p => mapNodes S m p.1 p.2) []
    some (data.foldl (fun i p => setCfg S i p.1 p.2) ⟨patterns, manual, data, map, []⟩)
  else none

/-- `generate_fusing_info` (fusing_info.py 380-457) on a graph whose nodes come in the order `order`.
Without patterns nothing is generated, not even the manual operations. -/
def generate (S : Setup N P) (g : Gr N) (order : List N) (patterns : List (Pattern P C))
    (manual : List (List Name)) : Option (Info N P C) :=
  if patterns.length = 0 then mkInfo S patterns manual []
  else do
    let ps := patterns.map Pattern.layers
    let st ← order.foldlM (genStep S g ps) ([], [])
    let d ← manual.foldlM (manualStep S g) st.1
    mkInfo S patterns manual d

/-- `add_fused_operation` (fusing_info.py 104-120). -/
def addOp (S : Setup N P) (info : Info N P C) (id : Name) (nodes : List N) : Option (Info N P C) :=
  if info.data.has id then none
  else some (setCfg S { info with
    data := info.data ++ [(id, nodes)]
    map := mapNodes S info.map id nodes } id nodes)

/-- `remove_fused_operation` (fusing_info.py 134-158). -/
def removeOp (S : Setup N P) (info : Info N P C) (id : Name) : Option (Info N P C) :=
  match info.data.get id with
  | none => none
  | some nodes => some { info with
      manual := info.manual.erase (nodes.map S.name)
      map := nodes.foldl (fun m n => m.pop (S.name n)) info.map
      data := info.data.pop id
      cfgs := info.cfgs.pop id }

/-- `add_manual_nodes_to_fuse` (fusing_info.py 82-93). -/
def addManual (info : Info N P C) (names : List Name) : Option (Info N P C) :=
  if names ∈ info.manual then none else some { info with manual := info.manual ++ [names] }

/-- `is_node_in_fused_op` (fusing_info.py 214-224). -/
def isFused (info : Info N P C) (n : N) : Bool := info.data.any (fun p => decide (n ∈ p.2))

/-- `get_inner_fln_nodes` (fusing_info.py 194-200). -/
def innerNodes (info : Info N P C) : List N := info.data.flatMap (fun p => p.2.dropLast)

/-- `is_quantized_node_in_fln` (fusing_info.py 226-240). `enabled` is the field
`enable_activation_quantization` of a configuration. `none` is a `KeyError`. -/
def isQuantizedInFln (S : Setup N P) (enabled : C → Bool) (info : Info N P C) (n : N) : Option Bool :=
  if isFused info n then do
    let id ← info.map.get (S.name n)
    let c ← info.cfgs.get id
    pure (match c with
      | some c => enabled c
      | none => false)
  else some false

/-- Check 2 of `FusingInfo.validate` (fusing_info.py 299-309): for every position but the last, the only
successor of the node is the next node. -/
def linked (g : Gr N) (w : List N) : Bool :=
  (List.range (w.length - 1)).all (fun i => match w[i]?, w[i + 1]? with
    | some a, some b => decide (nextNodes g a = [b])
    | _, _ => false)

/-- The checks of `FusingInfo.validate` (fusing_info.py 273-326), in the order of the operations; `used`
are the nodes of the operations before. `true` means that nothing is raised. -/
def validateFrom (S : Setup N P) (g : Gr N) (info : Info N P C) : List N → Dict (List N) → Bool
  | _, [] => true
  | used, (_, w) :: rest =>
    w.all (fun n => decide (n ∈ g.nodes)) &&
    linked g w &&
    w.all (fun n => decide (n ∉ used)) &&
    isValidFusion S (info.patterns.map Pattern.layers) w info.manual &&
    validateFrom S g info (used ++ w) rest

def validate (S : Setup N P) (g : Gr N) (info : Info N P C) : Bool :=
  validateFrom S g info [] info.data

/-- `fuse_padding_with_op2d` (shift_negative_activation.py 185-208). -/
def fusePadding (S : Setup N P) (info : Info N P C) (pad op2d : N) : Option (Info N P C) := do
  let (info, nodes) ←
    if isFused info op2d then do
      let id ← info.map.get (S.name op2d)
      let nodes ← info.data.get id
      let info ← removeOp S info id
      pure (info, nodes)
    else pure (info, [op2d])
  let new := pad :: nodes
  let info ← addOp S info (fusedId S new) new
  addManual info (new.map S.name)

/-- `dict.fromkeys` on a list: each element once, at its first place. -/
def unique (l : List N) : List N := l.foldl (fun acc n => if n ∈ acc then acc else acc ++ [n]) []

/-- The nodes gathered by `update_fused_op_with_add` from one node (shift_negative_activation.py
224-227). -/
def gather (S : Setup N P) (info : Info N P C) (n : N) : Option (List N) :=
  if isFused info n then do
    let id ← info.map.get (S.name n)
    info.data.get id
  else some []

/-- The removal of the operation of one node (shift_negative_activation.py 234-236). -/
def dropOf (S : Setup N P) (info : Info N P C) (n : N) : Option (Info N P C) :=
  if isFused info n then do
    let id ← info.map.get (S.name n)
    removeOp S info id
  else some info

/-- `update_fused_op_with_add` (shift_negative_activation.py 210-241); `prev` is the first entry of the
previous nodes of the non-linear node. -/
def updateWithAdd (S : Setup N P) (info : Info N P C) (prev nonlin add : N) : Option (Info N P C) := do
  let a ← gather S info prev
  let b ← gather S info nonlin
  let nodes := unique (a ++ b ++ [add])
  let info ← dropOf S info prev
  let info ← dropOf S info nonlin
  let info ← addManual info (nodes.map S.name)
  addOp S info (fusedId S nodes) nodes

/-- The first edge between two nodes: the entry 0 of `get_edge_data`. -/
def firstEdge (g : Gr N) (u v : N) : Option (Edge N) :=
  g.edges.find? (fun e => decide (e.src = u) && decide (e.dst = v))

/-- The loop over the predecessors of the first node (graph_fuser.py 119-122): every new edge takes the
attributes of the first parallel edge. -/
def fuseIn (g : Gr N) (first fused : N) : Option (Gr N) :=
  (prevNodes g first).foldlM (fun g p => do
    let e ← firstEdge g p first
    removeEdge (addEdge g ⟨p, fused, e.si, e.di⟩) p first) g

/-- The loop over the successors of the last node (graph_fuser.py 125-128). -/
def fuseOut (g : Gr N) (last fused : N) : Option (Gr N) :=
  (nextNodes g last).foldlM (fun g s => do
    let e ← firstEdge g last s
    removeEdge (addEdge g ⟨fused, s, e.si, e.di⟩) last s) g

/-- The removal of the edges inside the operation (graph_fuser.py 132-141): for every node but the last,
the edges to its successors, which must be in the operation, and then all other edges into them. -/
def fuseInner (g : Gr N) (nodes : List N) : Option (Gr N) :=
  nodes.dropLast.foldlM (fun g c =>
    (nextNodes g c).foldlM (fun g nx =>
      if nx ∈ nodes then do
        let g ← removeEdge g c nx
        (inEdges g nx).foldlM (fun g ie => removeEdge g ie.src nx) g
      else none) g) g

/-- The removal of the nodes (graph_fuser.py 144-157). `outNodes` are the output nodes before the loop:
only the first output that is a node of the operation is moved to the fused node, the list of outputs
being changed in place. -/
def fuseRemove (g : Gr N) (fused : N) (nodes : List N) : Option (Gr N) :=
  let outNodes := g.outputs.map Prod.fst
  nodes.foldlM (fun g n =>
    if n ∈ outNodes then
      let i := outNodes.idxOf n
      let outs := g.outputs.modify i (fun o => (fused, o.2))
      removeNode { g with outputs := outs } n none (some outs)
    else removeNode g n none none) g

/-- `_replace_nodes_with_fused_node` (graph_fuser.py 97-160). The validation after every change of the
graph, against the operations that are left, is not modelled. -/
def replaceFused (g : Gr N) (fused : N) (nodes : List N) : Option (Gr N) :=
  match nodes.head?, nodes.getLast? with
  | some first, some last => do
    let g ← fuseIn g first fused
    let g ← fuseOut g last fused
    let g ← fuseInner g nodes
    let g ← fuseRemove g fused nodes
    pure (addNode g fused)
  | _, _ => some g

/-- `apply_node_fusion` (graph_fuser.py 34-67): the fused operations must be those generated again from
the patterns and the manual operations, then each is replaced. `mk` makes the fused node of an
operation. Two `FusingInfo` objects are equal when their patterns, operations, maps and configurations
are, dictionaries being compared without regard to order; the manual operations are not compared. -/
def applyFusion [DecidableEq P] (S : Setup N P) (mk : Name → N) (g : Gr N) (order : List N)
    (info : Info N P C) : Option (Gr N) := do
  let want ← generate S g order info.patterns info.manual
  if want.data.isPerm info.data && want.map.isPerm info.map && want.cfgs.isPerm info.cfgs then
    info.data.foldlM (fun g p => replaceFused g (mk p.1) p.2) g
  else none

end MCT.Fusing
