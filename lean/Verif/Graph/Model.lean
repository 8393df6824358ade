/-
Model of the internal graph and of its edit operations.

Sources (all under /repo/model_compression_toolkit):
  core/common/graph/edge.py                                  Edge, Edge.__eq__
  core/common/graph/base_graph.py                            reconnect_*, replace_*, remove_node
  core/common/substitutions/remove_identity.py               remove_identity_node
  core/common/substitutions/batchnorm_folding.py             the graph part of both foldings
  core/common/substitutions/linear_collapsing.py             the graph part of the collapsings
  core/common/substitutions/residual_collapsing.py           the graph part
  core/common/substitutions/shift_negative_activation.py     insert/remove a node between two nodes
  core/keras/graph_substitutions/substitutions/...           activation, separable conv, swish

Nodes are an arbitrary type with decidable equality: a node is only compared, never inspected, by
the operations below.  What a node computes is a parameter of the specification (`Spec.lean`).
-/
import Mathlib.Data.List.Basic

namespace MCT.Graph

set_option linter.unusedSectionVars false
set_option linter.unusedVariables false

/-- An edge of the graph: source node, sink node, the index of the tensor among the outputs of the
source and the index of the tensor among the inputs of the sink.  edge.py 27-57. -/
structure Edge (N : Type*) where
  src : N
  dst : N
  si : Nat
  di : Nat
  deriving DecidableEq, Repr

/-- `Edge.__eq__` (edge.py 59-75), with its last comparison as written: the sink index of the other
edge is compared with the SOURCE index of this one. The `isinstance` test is not modelled. -/
def Edge.pyEq {N : Type*} [DecidableEq N] (self other : Edge N) : Bool :=
  decide (other.dst = self.dst) && decide (other.src = self.src) &&
    decide (other.si = self.si) && decide (other.di = self.si)

/-- The state of `Graph` the edit operations touch (base_graph.py 48-88): the nodes, the edges in
the order they were added, `input_nodes`, and `output_nodes` as (node, output index) pairs.
networkx keeps one dictionary of parallel edges per pair of nodes, each in insertion order; one
list in insertion order carries the same information for every operation used here. Fusing
information and its validation after each change are not part of this model. -/
structure Gr (N : Type*) where
  nodes : List N
  edges : List (Edge N)
  inputs : List N
  outputs : List (N × Nat)
  deriving DecidableEq, Repr

variable {N : Type*} [DecidableEq N]

/-- networkx `add_node`: nothing happens for a node already present. -/
def addNode (g : Gr N) (n : N) : Gr N :=
  if n ∈ g.nodes then g else { g with nodes := g.nodes ++ [n] }

/-- networkx `add_edge(u, v, **attr)`: missing end points become nodes, and a new parallel edge is
added. base_graph.py 904-909. -/
def addEdge (g : Gr N) (e : Edge N) : Gr N :=
  let g' := addNode (addNode g e.src) e.dst
  { g' with edges := g'.edges ++ [e] }

/-- The list without the last element that meets `p`. -/
def eraseLast {α : Type*} (p : α → Bool) (l : List α) : List α :=
  (l.reverse.eraseP p).reverse

/-- networkx `remove_edge(u, v)` on a multigraph: removes the edge between the two nodes that was
added last, and raises when there is none. base_graph.py 911-916. -/
def removeEdge (g : Gr N) (u v : N) : Option (Gr N) :=
  let between : Edge N → Bool := fun e => decide (e.src = u) && decide (e.dst = v)
  if g.edges.any between then some { g with edges := eraseLast between g.edges }
  else none

/-- `out_edges(n)` (base_graph.py 517-535) without sorting. networkx groups them by sink node; here
they are in insertion order. -/
def outEdges (g : Gr N) (n : N) : List (Edge N) := g.edges.filter (fun e => decide (e.src = n))

/-- `incoming_edges(n)` (base_graph.py 496-515) without sorting. -/
def inEdges (g : Gr N) (n : N) : List (Edge N) := g.edges.filter (fun e => decide (e.dst = n))

/-- `get_next_nodes` (base_graph.py 310-323): one entry per outgoing edge. -/
def nextNodes (g : Gr N) (n : N) : List N := (outEdges g n).map Edge.dst

/-- `get_prev_nodes` (base_graph.py 325-344): one entry per incoming edge. -/
def prevNodes (g : Gr N) (n : N) : List N := (inEdges g n).map Edge.src

/-- `reconnect_out_edges` (base_graph.py 346-360): for each outgoing edge of the node (the list is
taken before the loop), add the same edge from the new node and remove an edge from the current
node to the same sink. -/
def reconnectOut (g : Gr N) (cur new : N) : Option (Gr N) :=
  (outEdges g cur).foldlM
    (fun g e => removeEdge (addEdge g { e with src := new }) cur e.dst) g

/-- `reconnect_in_edges` (base_graph.py 362-377). -/
def reconnectIn (g : Gr N) (cur new : N) : Option (Gr N) :=
  (inEdges g cur).foldlM
    (fun g e => removeEdge (addEdge g { e with dst := new }) e.src cur) g

/-- The loop of `add_node_with_in_edges` (base_graph.py 401-403), from sink index `k`. -/
def addInEdges (g : Gr N) (new : N) : Nat → List (N × Nat) → Gr N
  | _, [] => g
  | k, (n, si) :: rest => addInEdges (addEdge g ⟨n, new, si, k⟩) new (k + 1) rest

/-- `add_node_with_in_edges` (base_graph.py 379-403). An empty index list stands for all zeros; a
list of the wrong length is an error. -/
def addNodeWithInEdges (g : Gr N) (new : N) (ins : List N) (idx : List Nat) : Option (Gr N) :=
  let idx' := if idx.length = 0 then List.replicate ins.length 0 else idx
  if idx'.length ≠ ins.length then none
  else some (addInEdges (addNode g new) new 0 (ins.zip idx'))

/-- `replace_output_node` (base_graph.py 405-426): same position, same output index. -/
def replaceOutput (g : Gr N) (cur new : N) : Gr N :=
  { g with outputs := g.outputs.map (fun o => if o.1 = cur then (new, o.2) else o) }

/-- `replace_input_node` (base_graph.py 428-451): the current node is removed from the list of
inputs and the new one is appended at the end. -/
def replaceInput (g : Gr N) (cur new : N) : Gr N :=
  if cur ∈ g.inputs then { g with inputs := g.inputs.erase cur ++ [new] } else g

/-- `remove_node` (base_graph.py 453-494). `none` is any of its failures: the node is an output
(input) and no new outputs (inputs) are given, or it still has edges, or it is not in the graph. -/
def removeNode (g : Gr N) (n : N) (newIn : Option (List N)) (newOut : Option (List (N × Nat))) :
    Option (Gr N) := do
  let g ← if n ∈ g.outputs.map Prod.fst then
      newOut.map (fun o => { g with outputs := o })
    else some g
  let g ← if n ∈ g.inputs then newIn.map (fun i => { g with inputs := i }) else some g
  if (inEdges g n).length = 0 ∧ (outEdges g n).length = 0 ∧ n ∈ g.nodes then
    some { g with nodes := g.nodes.erase n }
  else none

/-- `replace_node` (base_graph.py 736-752). -/
def replaceNode (g : Gr N) (cur new : N) : Option (Gr N) := do
  let g := addNode g new
  let g ← reconnectOut g cur new
  let g ← reconnectIn g cur new
  let g := replaceOutput g cur new
  let g := replaceInput g cur new
  removeNode g cur none none

/-- `remove_identity_node` (remove_identity.py 21-59). A node without exactly one incoming edge is
left alone. The list of outputs is updated in place first. -/
def removeIdentity (g : Gr N) (n : N) : Option (Gr N) :=
  match prevNodes g n with
  | [prev] => do
    let outs := g.outputs.map (fun o => if o.1 = n then (prev, o.2) else o)
    let g := { g with outputs := outs }
    let g ← reconnectOut g n prev
    let g ← removeEdge g prev n
    removeNode g n none (some outs)
  | _ => some g

/-- The graph part shared by the substitutions that replace a node `a` and its only consumer `b`
by one node `c`: batchnorm_folding.py 98-152 (`a` the convolution, `b` the batch normalisation)
and 235-299 (`a` the batch normalisation, `b` the convolution), linear_collapsing.py 106-181.
The substitution is skipped when `a` has more than one outgoing edge or `b` more than one
incoming edge. Reused convolutions, which are also skipped, and the copying of statistics and of
prior information are not modelled. -/
def mergePair (g : Gr N) (a b c : N) : Option (Gr N) :=
  if (nextNodes g a).length > 1 ∨ (prevNodes g b).length > 1 then some g
  else do
    let g := addNode g c
    let g ← reconnectOut g b c
    let g ← reconnectIn g a c
    let g := replaceOutput g b c
    let g ← removeEdge g a b
    let g ← removeNode g b none none
    removeNode g a none none

/-- The graph part of `ActivationDecomposition.substitute` (keras activation_decomposition.py
96-107) and of batch normalisation reconstruction (batchnorm_reconstruction.py 158-162): a new node
takes over the consumers of a node and its outputs, and reads output 0 of that node. -/
def appendAfter (g : Gr N) (cur new : N) : Option (Gr N) := do
  let g := addNode g new
  let g ← reconnectOut g cur new
  let g := addEdge g ⟨cur, new, 0, 0⟩
  pure (replaceOutput g cur new)

/-- The graph part of `SeparableConvDecomposition.substitute` (keras separableconv_decomposition.py
148-160): a node is replaced by two nodes in sequence. -/
def splitNode (g : Gr N) (cur first second : N) : Option (Gr N) := do
  let g := addNode g first
  let g := addNode g second
  let g := addEdge g ⟨first, second, 0, 0⟩
  let g ← reconnectIn g cur first
  let g ← reconnectOut g cur second
  let g := replaceOutput g cur second
  removeNode g cur none none

/-- `insert_node_between_two_nodes` (shift_negative_activation.py 90-111): both new edges take BOTH
indices of the edge they replace. Parallel edges between the two nodes fail the assertion. -/
def insertBetween (g : Gr N) (new first last : N) : Option (Gr N) :=
  let g := addNode g new
  match g.edges.filter (fun e => decide (e.src = first) && decide (e.dst = last)) with
  | [e] =>
    let g := addEdge g ⟨first, new, e.si, e.di⟩
    let g := addEdge g ⟨new, last, e.si, e.di⟩
    removeEdge g first last
  | _ => none

/-- `insert_node_after_node` (shift_negative_activation.py 114-134). -/
def insertAfter (g : Gr N) (new first : N) : Option (Gr N) :=
  match nextNodes g first with
  | [last] => insertBetween g new first last
  | _ => none

/-- `insert_node_before_node` (shift_negative_activation.py 137-156). -/
def insertBefore (g : Gr N) (new last : N) : Option (Gr N) :=
  match prevNodes g last with
  | [first] => insertBetween g new first last
  | _ => none

/-- `remove_node_between_two_nodes` (shift_negative_activation.py 159-182): the new edge takes both
indices of the edge INTO the removed node. -/
def removeBetween (g : Gr N) (n first last : N) : Option (Gr N) :=
  match g.edges.filter (fun e => decide (e.src = first) && decide (e.dst = n)) with
  | [e] => do
    let g := addEdge g ⟨first, last, e.si, e.di⟩
    let g ← removeEdge g first n
    let g ← removeEdge g n last
    removeNode g n none none
  | _ => none

/-- The graph part of `DwconvToConv.substitute` (keras dwconv_to_conv.py 112-126): the new node takes
over one incoming edge and all outgoing edges; the list of model outputs passed to `remove_node`
has the new node as its ONLY entry. The same list is passed by the attention decompositions (keras
multi_head_attention_decomposition.py 491, pytorch 747) and by the matrix multiplication
decomposition (pytorch matmul_decomposition.py 208). -/
def swapSingle (g : Gr N) (cur new : N) : Option (Gr N) :=
  let g := addNode g new
  match inEdges g cur with
  | [] => none
  | e :: _ => do
    let g := addEdge g { e with dst := new }
    let g ← removeEdge g e.src cur
    let g ← reconnectOut g cur new
    removeNode g cur none (some [(new, 0)])

/-- The graph part of the residual collapsing (residual_collapsing.py 66-108): `a` is the
convolution, `b` the addition. Skipped unless `a` has at most one outgoing and at least one
incoming edge, `b` has exactly two incoming edges, and the other operand of `b` is the node `a`
reads first. Only the nodes are compared, not the output index each of the two reads.
Skipping of reused layers is not modelled. -/
def collapseResidual (g : Gr N) (a b c : N) : Option (Gr N) :=
  if (nextNodes g a).length > 1 ∨ (prevNodes g a).length < 1 ∨ (prevNodes g b).length ≠ 2 then
    some g
  else match prevNodes g a, (prevNodes g b).erase a with
  | p :: _, [q] =>
    if p ≠ q then some g
    else do
      let g := addNode g c
      let g ← reconnectOut g b c
      let g ← reconnectIn g a c
      let g := replaceOutput g b c
      let g ← removeEdge g a b
      let g ← removeEdge g q b
      let g ← removeNode g a none none
      removeNode g b none none
  | _, _ => none

/-- The graph part of the sigmoid-multiplication substitution (keras sigmoid_mul_to_swish.py
63-92): skipped when the sigmoid is an output of the model, has more than one consumer, or its
input is not also an input of the multiplication. Only the nodes are compared, not the output
index each of the two reads. -/
def sigmoidMul (g : Gr N) (sig mul new : N) : Option (Gr N) :=
  if sig ∈ g.outputs.map Prod.fst then some g
  else match prevNodes g sig with
  | [] => none
  | input :: _ =>
    if (nextNodes g sig).length > 1 ∨ input ∉ prevNodes g mul then some g
    else do
      let g := addNode g new
      let g ← reconnectIn g sig new
      let g ← reconnectOut g mul new
      let g := replaceOutput g mul new
      let g ← removeEdge g input mul
      let g ← removeEdge g sig mul
      let g ← removeNode g sig none none
      removeNode g mul none none

end MCT.Graph
