/- Reading a Keras model into a graph, with nested models. -/
import Verif.Graph.Model

namespace MCT.KReader

open MCT.Graph (Edge)

/-! Paths are relative to /repo/model_compression_toolkit/core/keras/reader/.

A Keras model is given by its nodes (calls of layers) in the order of `_nodes_by_depth`, which is any order here.
Tensors are numbers.  A layer has a number (its identity; a layer that is called twice has two nodes), and what it does:
an input layer, an operation, or a model. -/

mutual
/-- A functional Keras model: `_nodes_by_depth`, `inputs`, `outputs` (reader.py 73-93, 112-116). -/
inductive KModel (O : Type) : Type
  | mk (nodes : List (KNode O)) (inputs outputs : List ℕ)
/-- A Keras node: layer, `keras_inputs` (`input_tensors` of an input layer) and `output_tensors` (reader.py 86-92). -/
inductive KNode (O : Type) : Type
  | mk (layer : ℕ) (op : KOp O) (ins outs : List ℕ)
/-- What a layer does (common.py 36-67). -/
inductive KOp (O : Type) : Type
  | input
  | prim (o : O)
  | model (m : KModel O)
end

variable {O V : Type}

/-- The nodes of a model. -/
def KModel.nodes : KModel O → List (KNode O)
  | .mk n _ _ => n
/-- The inputs of a model. -/
def KModel.inputs : KModel O → List ℕ
  | .mk _ i _ => i
/-- The outputs of a model. -/
def KModel.outputs : KModel O → List ℕ
  | .mk _ _ o => o
/-- The layer of a node. -/
def KNode.layer : KNode O → ℕ
  | .mk l _ _ _ => l
/-- What a node does. -/
def KNode.op : KNode O → KOp O
  | .mk _ o _ _ => o
/-- The input tensors of a node. -/
def KNode.ins : KNode O → List ℕ
  | .mk _ _ i _ => i
/-- The output tensors of a node. -/
def KNode.outs : KNode O → List ℕ
  | .mk _ _ _ o => o

/-- `is_node_an_input_layer`. common.py 36-50. -/
def KOp.isInput : KOp O → Bool
  | .input => true
  | _ => false

/-! ### The graph -/

/-- Nodes of the graph are objects; an object is named by its place: the positions of the nested models around it and
its own position. -/
abbrev Path := List ℕ

/-- A node of the graph: place, operation and number of outputs. -/
structure GNode (O : Type) where
  path : Path
  op : KOp O
  k : ℕ

/-- A graph: nodes, edges, input nodes and output tensors. -/
structure KGraph (O : Type) where
  nodes : List (GNode O)
  edges : List (Edge Path)
  inputs : List Path
  outputs : List (Path × ℕ)

/-- A node in the connectivity handler. -/
structure HNode (O : Type) where
  path : Path
  op : KOp O
  ins : List ℕ
  outs : List ℕ

/-- `build_connectivity_handler` and `convert_to_internal_nodes` (reader.py 73-93, connectivity_handler.py 225-252):
the order of the nodes is kept. -/
def handler (p : Path) (nodes : List (KNode O)) : List (HNode O) :=
  nodes.zipIdx.map fun e => ⟨p ++ [e.2], e.1.op, e.1.ins, e.1.outs⟩

/-- `input_tensor2nodes`: the nodes that read a tensor, once for every time they read it.
connectivity_handler.py 69-79, 170-176. -/
def consumers (ns : List (HNode O)) (t : ℕ) : List (HNode O) :=
  ns.flatMap fun n => (n.ins.filter fun i => decide (i = t)).map fun _ => n

/-- `output_tensor2node`: the node that was added last with this output. connectivity_handler.py 177-180. -/
def producer (ns : List (HNode O)) (t : ℕ) : Option (HNode O) :=
  ns.reverse.find? fun n => decide (t ∈ n.outs)

/-- `get_out_edges_params_list` and `get_edge_indices`. connectivity_handler.py 182-223. -/
def outEdgesOf (ns : List (HNode O)) (s : HNode O) : List (Edge Path) :=
  s.outs.flatMap fun t => ((consumers ns t).filter fun d => decide (s.path ≠ d.path)).map fun d =>
    ⟨s.path, d.path, s.outs.idxOf t, d.ins.idxOf t⟩

/-- `get_edges`. reader.py 36-56. -/
def getEdges (ns : List (HNode O)) : List (Edge Path) := ns.flatMap (outEdgesOf ns)

/-- `build_inputs_list`: a `KeyError` (`none`) for a tensor that no node reads. connectivity_handler.py 117-133. -/
def buildInputs (ns : List (HNode O)) (ts : List ℕ) : Option (List Path) :=
  (ts.mapM fun t => if (consumers ns t).isEmpty then none
    else some (((consumers ns t).filter fun n => n.op.isInput).map (·.path))).map List.flatten

/-- `build_outputs_list`. connectivity_handler.py 135-155. -/
def buildOutputs (ns : List (HNode O)) (ts : List ℕ) : Option (List (Path × ℕ)) :=
  ts.mapM fun t => (producer ns t).map fun n => (n.path, n.outs.idxOf t)

/-- `build_graph`. reader.py 96-117. -/
def buildGraph (p : Path) (nodes : List (KNode O)) (ins outs : List ℕ) : Option (KGraph O) :=
  let ns := handler p nodes
  (buildInputs ns ins).bind fun i => (buildOutputs ns outs).map fun o =>
    ⟨ns.map fun n => ⟨n.path, n.op, n.outs.length⟩, getEdges ns, i, o⟩

/-! ### Unrolling a nested model -/

/-- `list.remove` on edges: the first item that is the object (`same`: the object is in the list) or compares equal
(`Edge.__eq__`, edge.py 59-75); `none` is a `ValueError`. -/
def pyRemove (same : Bool) (x : Edge Path) : List (Edge Path) → Option (List (Edge Path))
  | [] => none
  | y :: l => if Edge.pyEq y x || (same && decide (y = x)) then some l else (pyRemove same x l).map (y :: ·)

/-- Out-edges of an input of the inner model are moved to the source of an in-edge of the model node.
nested_model/edges_merger.py 114-126. -/
def moveEdges (e : Edge Path) : List (Edge Path) → List (Edge Path) → Option (List (Edge Path))
  | [], res => some res
  | x :: xs, res => (pyRemove false x (res ++ [⟨e.src, x.dst, e.si, x.di⟩])).bind (moveEdges e xs)

/-- The out-edges of the input of the inner model with the index of an in-edge.
nested_model/edges_merger.py 110-114, 129-147. -/
def inputEdges (hIn : List Path) (hE : List (Edge Path)) (e : Edge Path) : List (Edge Path) :=
  match hIn[e.di]? with
  | some i => hE.filter fun x => decide (x.src = i)
  | none => []

/-- `rewire_incoming_edges`. nested_model/edges_merger.py 94-126. -/
def rewireIncoming (hIn : List Path) (hE : List (Edge Path)) :
    List (Edge Path) → List (Edge Path) → Option (List (Edge Path))
  | [], res => some res
  | e :: es, res => (moveEdges e (inputEdges hIn hE e) res).bind fun r =>
      (pyRemove true e r).bind (rewireIncoming hIn hE es)

/-- The pairs of an output of the inner model and an out-edge of the model node with its index.
nested_model/edges_merger.py 79-82. -/
def outPairs (outs : List (Path × ℕ)) (es : List (Edge Path)) : List ((Path × ℕ) × Edge Path) :=
  outs.zipIdx.flatMap fun o => (es.filter fun e => decide (e.si = o.2)).map fun e => (o.1, e)

/-- `rewire_outgoing_edged`. nested_model/edges_merger.py 67-91. -/
def rewireOutgoing : List ((Path × ℕ) × Edge Path) → List (Edge Path) → Option (List (Edge Path))
  | [], res => some res
  | (o, e) :: ps, res => (pyRemove true e (res ++ [⟨o.1, e.dst, o.2, e.di⟩])).bind (rewireOutgoing ps)

/-- `merge_models_edges`. nested_model/edges_merger.py 25-64, 150-169. networkx lists edges by their source; here they
are in the order they were added. -/
def mergeEdges (M : Path) (g h : KGraph O) : Option (List (Edge Path)) :=
  (rewireIncoming h.inputs h.edges (g.edges.filter fun e => decide (e.dst = M)) (g.edges ++ h.edges)).bind
    (rewireOutgoing (outPairs h.outputs (g.edges.filter fun e => decide (e.src = M))))

/-- `list.remove` on nodes. -/
def removeNode (p : Path) (l : List (GNode O)) : Option (List (GNode O)) :=
  if p ∈ l.map (·.path) then some (l.eraseP fun n => decide (n.path = p)) else none

/-- Several removals. nested_model/nodes_merger.py 41-42. -/
def removeNodes : List Path → List (GNode O) → Option (List (GNode O))
  | [], l => some l
  | p :: ps, l => (removeNode p l).bind (removeNodes ps)

/-- `merge_models_nodes`. nested_model/nodes_merger.py 24-46. -/
def mergeNodes (M : Path) (g h : KGraph O) : Option (List (GNode O)) :=
  (removeNodes h.inputs (g.nodes ++ h.nodes)).bind (removeNode M)

/-- `merge_models_outputs`. nested_model/outputs_merger.py 26-52. -/
def mergeOutputs (M : Path) (g h : KGraph O) : Option (List (Path × ℕ)) :=
  g.outputs.mapM fun o => if o.1 = M then h.outputs[o.2]? else some o

/-- `merge_graphs` (nested_model/nested_model_handler.py 24-64) and the construction of the graph
(base_graph.py 60-94): a removed node that is the end of an edge is added again by networkx. -/
def merge (M : Path) (g h : KGraph O) : Option (KGraph O) :=
  (mergeNodes M g h).bind fun ns => (mergeOutputs M g h).bind fun os => (mergeEdges M g h).map fun es =>
    ⟨ns ++ ((g.nodes ++ h.nodes).filter fun n =>
        decide (n.path ∉ ns.map (·.path) ∧ n.path ∈ es.map (·.src) ++ es.map (·.dst))),
      es, g.inputs, os⟩

mutual
/-- `parse_model` for the model at a place. reader.py 120-142. -/
def parse (p : Path) : KModel O → Option (KGraph O)
  | .mk nodes ins outs => (buildGraph p nodes ins outs).bind (flattenNodes p 0 [] nodes)
/-- The loop over the nodes: `seen` are the layers of the nodes before. reader.py 135-141. -/
def flattenNodes (p : Path) (i : ℕ) (seen : List ℕ) : List (KNode O) → KGraph O → Option (KGraph O)
  | [], g => some g
  | .mk l op _ _ :: ns, g => (flattenOp (p ++ [i]) (decide (l ∈ seen)) op g).bind fun g' =>
      flattenNodes p (i + 1) (l :: seen) ns g'
/-- `flatten_nested_model` (reader.py 145-169): the second node of a layer is called `…_reused_1` (node_builder.py
231-243), and the model has no layer with this name. -/
def flattenOp (M : Path) (reused : Bool) : KOp O → KGraph O → Option (KGraph O)
  | .model m, g => if reused then none else (parse M m).bind fun h => merge M g h
  | .input, g => some g
  | .prim _, g => some g
end

/-- `model_reader`. reader.py 172-183. -/
def read (m : KModel O) : Option (KGraph O) := parse [] m

end MCT.KReader
