/- Reading a traced PyTorch model into a graph and building a PyTorch model from the graph. -/
import Mathlib.Data.List.Sort
import Mathlib.Data.List.Basic

namespace MCT.Torch

set_option linter.unusedVariables false

/-! ### Traced models

A traced model (torch.fx) is a list of nodes in the order in which they run; a node is named by its position.
`V` are tensors, `C` the other arguments (numbers, strings, tuples of them), `F` functions and modules, `K` names of
keyword arguments.  A node has one output (a tuple counts as one value; fx takes it apart with `getitem`). -/

/-- An argument of a call: the output of a node, or a literal. -/
inductive Arg (C : Type) where
  | node (i : ℕ)
  | lit (c : C)
  deriving DecidableEq

/-- The arguments of a call. `list` is the first positional argument when it is a list of tensors
(`torch.cat([x, y], 1)`); `args` are the other positional arguments. Lists that mix tensors and literals, and lists
of tensors elsewhere, are not modelled. -/
structure Call (C K : Type) where
  list : Option (List ℕ)
  args : List (Arg C)
  kwargs : List (K × Arg C)

/-- A node of a traced model. -/
inductive Op (V C F K : Type) where
  | placeholder
  | const (v : V)
  | func (f : F) (c : Call C K)
  | module (f : F) (c : Call C K)

/-- A traced model: its nodes and the nodes it returns. -/
structure Fx (V C F K : Type) where
  nodes : List (Op V C F K)
  outs : List ℕ

/-- What functions and modules compute from a list of tensors, positional and keyword arguments; `none` is an
exception. -/
structure Sem (V C F K : Type) where
  func : F → Option (List V) → List (V ⊕ C) → (K → Option (V ⊕ C)) → Option V
  module : F → Option (List V) → List (V ⊕ C) → (K → Option (V ⊕ C)) → Option V

variable {V C F K : Type} [DecidableEq K]

/-- Lookup of a keyword argument. -/
def lookK {A : Type} (d : List (K × A)) (k : K) : Option A := (d.find? (fun e => decide (e.1 = k))).map (·.2)

/-- The value of an argument. -/
def argVal (env : ℕ → Option V) : Arg C → Option (V ⊕ C)
  | .node i => (env i).map .inl
  | .lit c => some (.inr c)

/-- The values of the arguments of a call. -/
def callVals (env : ℕ → Option V) (c : Call C K) :
    Option (Option (List V) × List (V ⊕ C) × (K → Option (V ⊕ C))) :=
  match (match c.list with
      | none => some none
      | some l => (l.mapM env).map some),
    c.args.mapM (argVal env), c.kwargs.mapM (fun e => (argVal env e.2).map (fun v => (e.1, v))) with
  | some l, some a, some k => some (l, a, lookK k)
  | _, _, _ => none

def isPlaceholder : Op V C F K → Bool
  | .placeholder => true
  | _ => false

/-- One node of the traced model: the k-th placeholder takes the k-th input. -/
def fxStep (sem : Sem V C F K) (nodes : List (Op V C F K)) (inputs : List V) (env : ℕ → Option V) (i : ℕ) :
    Op V C F K → Option V
  | .placeholder => inputs[(nodes.take i).countP isPlaceholder]?
  | .const v => some v
  | .func f c => (callVals env c).bind (fun a => sem.func f a.1 a.2.1 a.2.2)
  | .module f c => (callVals env c).bind (fun a => sem.module f a.1 a.2.1 a.2.2)

/-- The values of the first `n` nodes, run in order; `none` when one of them fails. -/
def fxEnv (sem : Sem V C F K) (nodes : List (Op V C F K)) (inputs : List V) : ℕ → Option (List V)
  | 0 => some []
  | n + 1 =>
    match fxEnv sem nodes inputs n, nodes[n]? with
    | some vs, some op => (fxStep sem nodes inputs (fun i => vs[i]?) n op).map (fun v => vs ++ [v])
    | _, _ => none

/-- What the traced model returns. -/
def fxRun (sem : Sem V C F K) (g : Fx V C F K) (inputs : List V) : Option (List V) :=
  (fxEnv sem g.nodes inputs g.nodes.length).bind (fun vs => g.outs.mapM (fun i => vs[i]?))

/-! ### The reader

Paths are relative to /repo/model_compression_toolkit/core/pytorch/. -/

/-- The nodes among arguments. -/
def nodeIds (args : List (Arg C)) : List ℕ := args.filterMap (fun
  | .node i => some i
  | .lit _ => none)

/-- The literals among arguments. -/
def lits (args : List (Arg C)) : List C := args.filterMap (fun
  | .node _ => none
  | .lit c => some c)

/-- First occurrences of the elements of a list. -/
def firsts : List ℕ → List ℕ
  | [] => []
  | a :: l => a :: (firsts l).filter (fun b => decide (b ≠ a))

/-- `all_input_nodes` of torch.fx: the nodes among the arguments, each once, in the order of the arguments. -/
def allInputs (c : Call C K) : List ℕ :=
  firsts (c.list.getD [] ++ nodeIds c.args ++ nodeIds (c.kwargs.map (·.2)))

/-- Positions, from `k`, of node `n` in a list of arguments. -/
def positions (n : ℕ) (k : ℕ) : List (Arg C) → List ℕ
  | [] => []
  | .node i :: l => if i = n then k :: positions n (k + 1) l else positions n (k + 1) l
  | .lit _ :: l => positions n (k + 1) l

/-- The value of a constant node (`get_attr`), reader/graph_builders.py 228-233. -/
def constVal (nodes : List (Op V C F K)) (i : ℕ) : Option V := match nodes[i]? with
  | some (.const v) => some v
  | _ => none

/-- The positional weights of a node, reader/graph_builders.py 237-252: the constants among its inputs, by their
position in the list that is its first argument, else by their position in `all_input_nodes`. -/
def weightsOf (cv : ℕ → Option V) (c : Call C K) : List (ℕ × V) :=
  match c.list with
  | some l => (allInputs c).flatMap (fun n =>
      (positions (C := C) n 0 (l.map .node)).filterMap (fun i => (cv n).map (fun v => (i, v))))
  | none => (allInputs c).zipIdx.filterMap (fun e => (cv e.1).map (fun v => (e.2, v)))

/-- `tensor_input_alloc`, `_build_input_alloc_and_call_args`, reader/graph_builders.py 63-96. -/
def allocsOf (c : Call C K) : List (ℕ ⊕ K) :=
  (allInputs c).flatMap (fun n =>
    (positions n 0 (match c.list with
      | some l => l.map .node
      | none => c.args)).map .inl ++
    (c.kwargs.filterMap (fun e => match e.2 with
      | .node i => if i = n then some (.inr e.1) else none
      | .lit _ => none)))

/-- A node of the graph: `FunctionalNode` with `op_call_args`, `op_call_kwargs`, `inputs_as_list`,
`tensor_input_allocs`, or `BaseNode`; with the positional weights. -/
inductive GNode (V C F K : Type) where
  | input
  | func (f : F) (opArgs : List C) (opKwargs : List (K × C)) (asList : Bool) (allocs : List (ℕ ⊕ K))
      (weights : List (ℕ × V))
  | module (f : F) (weights : List (ℕ × V))

/-- The keyword arguments that are no tensors, reader/graph_builders.py 286-294. -/
def litKwargs (kw : List (K × Arg C)) : List (K × C) := kw.filterMap (fun e => match e.2 with
  | .node _ => none
  | .lit c => some (e.1, c))

/-- `nodes_builder`, reader/graph_builders.py 162-353, for one node; `none` for constants, which are no nodes of the
graph. The arguments of a module are not kept (317-334). The shapes, attributes and reuse groups of nodes are not
modelled. -/
def readNode (cv : ℕ → Option V) : Op V C F K → Option (GNode V C F K)
  | .placeholder => some .input
  | .const _ => none
  | .func f c => some (.func f (lits c.args) (litKwargs c.kwargs) c.list.isSome (allocsOf c) (weightsOf cv c))
  | .module f c => some (.module f (weightsOf cv c))

def callOf : Op V C F K → Option (Call C K)
  | .func _ c => some c
  | .module _ c => some c
  | _ => none

/-- An edge: source, sink, `sink_index`. -/
structure GEdge where
  src : ℕ
  dst : ℕ
  idx : ℕ
  deriving DecidableEq

/-- The arguments in which `edges_builder` counts the occurrences of an input, reader/graph_builders.py 374-382: the
list of a function that takes its inputs as list, else the positional arguments (the list of a module is one argument
that is no node). -/
def countedArgs : Op V C F K → List ℕ
  | .func _ c => match c.list with
    | some l => l
    | none => nodeIds c.args
  | .module _ c => nodeIds c.args
  | _ => []

/-- The edges from node `i` to node `j`, `edges_builder`, reader/graph_builders.py 370-390. -/
def edgesBetween (nodes : List (Op V C F K)) (i j : ℕ) : List GEdge :=
  match nodes[j]? with
  | none => []
  | some op => match callOf op with
    | none => []
    | some c =>
      if i ∈ allInputs c ∧ (constVal nodes i).isNone then
        (List.range (max ((countedArgs op).count i) 1)).map (fun t => ⟨i, j, (allInputs c).idxOf i + t⟩)
      else []

/-- `edges_builder`, reader/graph_builders.py 356-398: by source, then by sink, in the order of the nodes. -/
def edgesOf (nodes : List (Op V C F K)) : List GEdge :=
  (List.range nodes.length).flatMap (fun i => (List.range nodes.length).flatMap (fun j => edgesBetween nodes i j))

/-- The nodes of the graph. -/
def graphNodes (nodes : List (Op V C F K)) : List ℕ :=
  (List.range nodes.length).filter (fun i => (constVal nodes i).isNone)

/-- The inputs of the graph, reader/graph_builders.py 336-339. -/
def graphInputs (nodes : List (Op V C F K)) : List ℕ :=
  (List.range nodes.length).filter (fun i => match nodes[i]? with
    | some op => isPlaceholder op
    | none => false)

/-- Nodes and edges left by `remove_broken_nodes_from_graph`. -/
structure Rest where
  nodes : List ℕ
  edges : List GEdge

/-- `remove_broken_nodes_from_graph`, reader/reader.py 121-154, the inner loop: a node to remove is removed with its
incoming edges; the nodes that have lost their last outgoing edge are removed next. (The order of removals is
simplified: Python appends to and removes from the list it iterates over.) -/
def cascade : ℕ → List ℕ → Rest → Rest
  | 0, _, s => s
  | _, [], s => s
  | fuel + 1, x :: work, s =>
    let edges := s.edges.filter (fun e => decide (e.dst ≠ x))
    let orphans := (firsts ((s.edges.filter (fun e => decide (e.dst = x))).map (·.src))).filter
      (fun p => !edges.any (fun e => decide (e.src = p)))
    cascade fuel (work ++ orphans) ⟨s.nodes.filter (fun y => decide (y ≠ x)), edges⟩

/-- `remove_broken_nodes_from_graph`, reader/reader.py 133-154: from each node without consumer that is no output. -/
def removeBroken (outs : List ℕ) (s : Rest) : Rest :=
  (s.nodes.filter (fun n => !s.edges.any (fun e => decide (e.src = n)) && !outs.contains n)).foldl
    (fun s n => cascade (s.nodes.length) [n] s) s

/-- What `model_reader` returns, reader/reader.py 157-182; `none` for a refused model: an output that is a constant
(a `KeyError`), a constant that is used by no node, or an input without consumer. -/
def read (g : Fx V C F K) : Option (Rest × List ℕ) :=
  let outs := firsts g.outs
  let used := (List.range g.nodes.length).flatMap (fun j => match (g.nodes[j]?).bind callOf with
    | some c => match c.list with
      | some l => l
      | none => allInputs c
    | none => [])
  let edges := edgesOf g.nodes
  if outs.any (fun o => !decide (o ∈ graphNodes g.nodes)) then none
  else if (List.range g.nodes.length).any (fun i => (constVal g.nodes i).isSome && !decide (i ∈ used)) then none
  else if (graphInputs g.nodes).any (fun i => !edges.any (fun e => decide (e.src = i))) then none
  else some (removeBroken outs ⟨graphNodes g.nodes, edges⟩, outs)

/-! ### The builder -/

/-- `list.insert`. -/
def insertAt {A : Type} (l : List A) (i : ℕ) (a : A) : List A := l.take i ++ a :: l.drop i

/-- `insert_positional_weights_to_input_list`, ../common/graph/base_node.py 357-373. -/
def insertWeights (ws : List (ℕ × V)) (ins : List V) : Option (List V) :=
  (ws.insertionSort (fun a b => a.1 ≤ b.1)).foldlM
    (fun acc w => if acc.length < w.1 then none else some (insertAt acc w.1 w.2)) ins

/-- `_merge_inputs`, back2framework/pytorch_model_builder.py 69-101. A mismatch of lengths is only logged. -/
def mergeInputs (allocs : List (ℕ ⊕ K)) (opArgs : List C) (opKwargs : List (K × C)) (ins : List V) :
    Option (List (V ⊕ C) × List (K × (V ⊕ C))) :=
  let kw0 := opKwargs.map (fun e => (e.1, (Sum.inr e.2 : V ⊕ C)))
  if allocs.isEmpty then some (ins.map .inl ++ opArgs.map .inr, kw0)
  else (List.zip allocs ins).foldlM (fun acc e => match e.1 with
    | .inl i => some (insertAt acc.1 i (.inl e.2), acc.2)
    | .inr k => if acc.2.any (fun d => decide (d.1 = k)) then none else some (acc.1, acc.2 ++ [(k, .inl e.2)]))
    (opArgs.map .inr, kw0)

/-- `_build_input_tensors_list`, back2framework/pytorch_model_builder.py 39-66, for nodes that are no inputs: the
outputs of the sources of the incoming edges, sorted (stably) by sink index. -/
def inputTensors (edges : List GEdge) (env : ℕ → Option V) (j : ℕ) : Option (List V) :=
  ((edges.filter (fun e => decide (e.dst = j))).insertionSort (fun a b => a.idx ≤ b.idx)).mapM (fun e => env e.src)

/-- `_run_operation`, back2framework/pytorch_model_builder.py 104-165, of a model without quantization. -/
def runNode (sem : Sem V C F K) (ins : List V) : GNode V C F K → Option V
  | .input => none
  | .module f ws => (insertWeights ws ins).bind (fun a => sem.module f none (a.map .inl) (fun _ => none))
  | .func f opArgs opKwargs asList allocs ws => (insertWeights ws ins).bind (fun a =>
      if asList then sem.func f (some a) (opArgs.map .inr) (lookK (opKwargs.map (fun e => (e.1, (Sum.inr e.2 : V ⊕ C)))))
      else (mergeInputs allocs opArgs opKwargs a).bind (fun m => sem.func f none m.1 (lookK m.2)))

/-- One node of the built model, back2framework/pytorch_model_builder.py 366-383. -/
def buildStep (sem : Sem V C F K) (nodes : List (Op V C F K)) (edges : List GEdge) (inputs : List V)
    (env : ℕ → Option V) (j : ℕ) : Option V :=
  match (nodes[j]?).bind (readNode (constVal nodes)) with
  | none => none
  | some .input => inputs[(graphInputs nodes).idxOf j]?
  | some n => (inputTensors edges env j).bind (fun ins => runNode sem ins n)

/-- The nodes run in the order `node_sort`; the tensors are kept in a dictionary by node. -/
def buildEnv (sem : Sem V C F K) (nodes : List (Op V C F K)) (edges : List GEdge) (inputs : List V) :
    List ℕ → (ℕ → Option V) → Option (ℕ → Option V)
  | [], env => some env
  | j :: js, env => (buildStep sem nodes edges inputs env j).bind (fun v =>
      buildEnv sem nodes edges inputs js (fun i => if i = j then some v else env i))

/-- `forward`, back2framework/pytorch_model_builder.py 356-393, of the float model built from the graph that is read,
for the order `order` of its nodes. -/
def rebuilt (sem : Sem V C F K) (g : Fx V C F K) (order : List ℕ) (inputs : List V) : Option (List V) :=
  (read g).bind (fun r => (buildEnv sem g.nodes r.1.edges inputs order (fun _ => none)).bind
    (fun env => r.2.mapM env))

end MCT.Torch
