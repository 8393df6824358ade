import Mathlib.Algebra.BigOperators.Group.List.Basic
import Mathlib.Data.List.Dedup
import Mathlib.Data.Int.Basic

/-!
# Structured pruning: sections, memory estimate, the pruned graph

Models the pruning parts of `core/common/graph/base_graph.py`, `core/common/pruning/memory_calculator.py`,
`prune_graph.py`, `pruning_section.py` and the framework functions that slice the weights.
-/

namespace MCT.Pruning

/-- What pruning reads of a graph.  Nodes are numbered in topological order.
`entry`: `is_node_entry_node` (a convolution or dense layer with one group,
pruning_keras_implementation.py:176-195, pruning_pytorch_implementation.py:194-213);
`inter`: `is_node_intermediate_pruning_section`; `chanMatch x e`: `has_matching_channel_count`
(pruning_section.py:98-118); `outputs`: the nodes that are outputs of the model. -/
structure PGraph where
  n : ℕ
  edges : List (ℕ × ℕ)
  outputs : List ℕ
  entry : ℕ → Bool
  inter : ℕ → Bool
  chanMatch : ℕ → ℕ → Bool

/-- Sinks of `out_edges` (base_graph.py:517-535). -/
def PGraph.outs (g : PGraph) (i : ℕ) : List ℕ := (g.edges.filter fun e => decide (e.1 = i)).map Prod.snd

/-- `len(self.in_edges(node))` (networkx). -/
def PGraph.inDeg (g : PGraph) (i : ℕ) : ℕ := (g.edges.filter fun e => decide (e.2 = i)).length

/-- `is_node_exit_node` (pruning_keras_implementation.py:101-115). -/
def PGraph.isExit (g : PGraph) (x e : ℕ) : Bool := g.entry x && g.chanMatch x e

/-- `_is_node_topology_prunable` (base_graph.py:786-815); the walk is bounded by the first argument. -/
def PGraph.prunableFrom (g : PGraph) : ℕ → ℕ → ℕ → Bool
  | 0, _, _ => false
  | fuel + 1, e, cur =>
    match g.outs cur with
    | [nx] =>
      if g.isExit nx e = true ∧ g.inDeg nx = 1 then true
      else if g.inter nx = false ∨ g.inDeg nx ≠ 1 ∨ (g.outs nx).length ≠ 1 then false
      else g.prunableFrom fuel e nx
    | _ => false

/-- `_find_intermediate_and_exit_nodes` (base_graph.py:843-861). -/
def PGraph.findExit (g : PGraph) : ℕ → ℕ → ℕ → Option (List ℕ × ℕ)
  | 0, _, _ => none
  | fuel + 1, e, cur =>
    match g.outs cur with
    | [] => none
    | nx :: _ =>
      if g.isExit nx e then some ([], nx)
      else (g.findExit fuel e nx).map fun p => (nx :: p.1, p.2)

/-- `PruningSection` (pruning_section.py:48-64). -/
structure Section where
  entry : ℕ
  inters : List ℕ
  exit : ℕ
  deriving DecidableEq, Repr

/-- `get_all_section_nodes` (pruning_section.py:66-75). -/
def Section.nodes (s : Section) : List ℕ := s.entry :: (s.inters ++ [s.exit])

/-- `get_pruning_sections_entry_nodes` (base_graph.py:768-784). -/
def PGraph.entryNodes (g : PGraph) : List ℕ :=
  (List.range g.n).filter fun i => g.entry i && g.prunableFrom (g.n + 1) i i

/-- `_create_pruning_section` (base_graph.py:818-841). -/
def PGraph.createSection (g : PGraph) (e : ℕ) : Option Section :=
  if g.entry e then
    match g.findExit (g.n + 1) e e with
    | none => none
    | some (ms, x) => if g.isExit x e then some ⟨e, ms, x⟩ else none
  else none

/-- `get_pruning_sections` (base_graph.py:754-766). -/
def PGraph.sections (g : PGraph) : Option (List Section) := g.entryNodes.mapM g.createSection

/-! ### Memory estimate -/

/-- `_get_exit_node_input_mask` (memory_calculator.py:183-213): the mask of the entry node of the first
section that ends in `node`, else all ones (`nic`: number of input channels). -/
def inputMask (sections : List Section) (masks : ℕ → Option (List Bool)) (nic : ℕ → ℕ) (node : ℕ) :
    Option (List Bool) :=
  match sections.find? fun s => decide (s.exit = node) with
  | some s => masks s.entry
  | none => some (List.replicate (nic node) true)

/-- `_get_nodes_from_adjacent_sections` (memory_calculator.py:215-229): nodes that are both the entry of a
section and the exit of a section; a set intersection. -/
def sharedNodes (sections : List Section) : List ℕ :=
  ((sections.map Section.entry).filter fun i => decide (i ∈ sections.map Section.exit)).dedup

/-- `get_pruned_graph_num_params` (memory_calculator.py:65-181, 231-264).  `cnt node inputMask outputMask`
is `get_pruned_node_num_params`. -/
def estimate (n : ℕ) (sections : List Section) (masks : ℕ → Option (List Bool)) (nic : ℕ → ℕ)
    (cnt : ℕ → Option (List Bool) → Option (List Bool) → ℤ) : ℤ :=
  (((List.range n).filter fun i => !decide (i ∈ sections.flatMap Section.nodes)).map
      fun i => cnt i none none).sum
  + (sections.map fun s =>
      cnt s.entry (inputMask sections masks nic s.entry) (masks s.entry)
      + (s.inters.map fun m => cnt m (masks s.entry) (masks s.entry)).sum
      + cnt s.exit (masks s.entry) (masks s.exit)).sum
  - ((sharedNodes sections).map fun i => cnt i (inputMask sections masks nic i) (masks i)).sum

/-- A weight attribute: its shape and the axes of its output and input channels
(`attrs_oi_channels_info_for_pruning`, pruning_keras_implementation.py:133-173: kernel: both axes; bias:
axis 0; attributes of other layers: the last axis). -/
structure PAttr where
  shape : List ℕ
  outAx : Option ℕ
  inAx : Option ℕ
  deriving DecidableEq, Repr

/-- Shape of `np.take(w, np.where(mask)[0], axis)` and of `w.compress(mask, axis)`
(memory_calculator.py:326-345; pruning_keras_implementation.py:66-72, 219-228), for a mask of the length of
the axis. -/
def pruneShape (shape : List ℕ) (mask : Option (List Bool)) (ax : Option ℕ) : List ℕ :=
  match mask, ax with
  | some m, some a => shape.set a (m.count true)
  | _, _ => shape

/-- Parameters of a node under masks without padding (memory_calculator.py:282-298): input axis first,
then output axis. -/
def nodeParams (attrs : List PAttr) (inMask outMask : Option (List Bool)) : ℤ :=
  ((attrs.map fun a => (pruneShape (pruneShape a.shape inMask a.inAx) outMask a.outAx).prod).sum : ℕ)

/-- `get_node_nparams_with_padded_channels` (memory_calculator.py:347-376): `none` for no channels;
parameters per channel are rounded up, channels are rounded up to a multiple of the SIMD size. -/
def paddedParams (nparams numOc simd : ℕ) : Option ℕ :=
  if numOc < 1 then none
  else some ((numOc + simd - 1) / simd * simd * ((nparams + numOc - 1) / numOc))

/-! ### The pruned graph -/

/-- Slice every attribute of a node along its output channels: `_prune_keras_edge_node` for an entry node
(pruning_keras_implementation.py:198-228) and `prune_intermediate_node` (53-72). -/
def pruneOut (m : List Bool) (attrs : List PAttr) : List PAttr :=
  attrs.map fun a => { a with shape := pruneShape a.shape (some m) a.outAx }

/-- Slice the kernel of an exit node along its input channels (pruning_keras_implementation.py:74-87,
198-222). -/
def pruneIn (m : List Bool) (attrs : List PAttr) : List PAttr :=
  attrs.map fun a => { a with shape := pruneShape a.shape (some m) a.inAx }

/-- `apply_inner_section_mask` (pruning_section.py:77-96) with both masks of the section equal
(prune_graph.py:62-67). -/
def applySection (w : ℕ → List PAttr) (s : Section) (m : List Bool) : ℕ → List PAttr :=
  let w1 : ℕ → List PAttr := fun i => if i = s.entry then pruneOut m (w i) else w i
  let w2 : ℕ → List PAttr := s.inters.foldl (fun v j => fun i => if i = j then pruneOut m (v i) else v i) w1
  fun i => if i = s.exit then pruneIn m (w2 i) else w2 i

/-- `build_pruned_graph` (prune_graph.py:28-69): the weights of every node; sections whose mask prunes
nothing are skipped.  `none`: a section without mask. -/
def buildPruned (w : ℕ → List PAttr) (sections : List Section) (masks : ℕ → Option (List Bool)) :
    Option (ℕ → List PAttr) :=
  sections.foldlM (fun v s =>
    match masks s.entry with
    | none => none
    | some m => some (if m.any (fun b => !b) then applySection v s m else v)) w

end MCT.Pruning
