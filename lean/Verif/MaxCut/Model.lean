import Mathlib.Algebra.Order.Field.Basic
import Mathlib.Algebra.BigOperators.Group.List.Basic
import Mathlib.Data.List.Dedup

/-!
# The max-cut scheduler

Models `core/common/graph/memory_graph/{memory_graph,bipartite_graph,memory_element,cut,max_cut_astar,
compute_graph_max_cut}.py`.

Simplifications: operations are identified with their names (the code compares some of them by name,
max_cut_astar.py:253-256) and tensors with their identity; operation names do not contain `dummy_node`
(397-408: such operations would be dropped from the schedule); floats are elements of an ordered field.
-/

namespace MCT.MaxCut

variable {K : Type} [Field K] [LinearOrder K] [IsStrictOrderedRing K]

/-- The bipartite memory graph (memory_graph.py:36-101): operations `0 … n-1`, the tensors each of them reads
(`ins`) and writes (`outs`), the size of each tensor (memory_element.py:24-51), and whether an operation is
an input of the model. -/
structure MemGraph (K : Type) where
  n : ℕ
  ins : ℕ → List ℕ
  outs : ℕ → List ℕ
  size : ℕ → K
  isInput : ℕ → Bool

/-- Operations with the dummy source and the two dummy targets (max_cut_astar.py:90-124). -/
inductive Op
  | src
  | real (i : ℕ)
  | tgt
  | tgt2
  deriving DecidableEq, Repr

/-- Tensors with the dummy tensors of size zero. -/
inductive Ten
  | srcT
  | real (t : ℕ)
  | tgtT
  | tgtT2
  deriving DecidableEq, Repr

namespace MemGraph
variable (g : MemGraph K)

/-- Successors of a tensor in the graph before the dummies are added (memory_graph.py:118-129). -/
def consumers (t : ℕ) : List ℕ := (List.range g.n).filter fun i => decide (t ∈ g.ins i)

/-- `sources_a`: operations without inputs (memory_graph.py:103-108). -/
def sources : List ℕ := (List.range g.n).filter fun i => (g.ins i).isEmpty

/-- All tensors. -/
def tensors : List ℕ := ((List.range g.n).flatMap g.outs).dedup

/-- `sinks_b`: tensors without consumers (memory_graph.py:110-115). -/
def sinks : List ℕ := g.tensors.filter fun t => (g.consumers t).isEmpty

/-- `activation_tensor_children` after the dummies are added (memory_graph.py:118-129,
max_cut_astar.py:101-120). -/
def children : Ten → List Op
  | .srcT => g.sources.map Op.real
  | .real t => (g.consumers t).map Op.real ++ (if t ∈ g.sinks then [.tgt] else [])
  | .tgtT => [.tgt2]
  | .tgtT2 => []

/-- `operation_node_parents` (memory_graph.py:157-168).  The method is cached and has been called for all
operations that are not model inputs before the dummies are added (memory_graph.py:83-87), so for those
the edge from the dummy source is not seen. -/
def parents : Op → List Ten
  | .src => []
  | .real i =>
    if (g.ins i).isEmpty then (if g.isInput i then [.srcT] else []) else (g.ins i).map Ten.real
  | .tgt => g.sinks.map Ten.real
  | .tgt2 => [.tgtT]

/-- `operation_node_children` (memory_graph.py:144-155). -/
def outsOf : Op → List Ten
  | .src => [.srcT]
  | .real i => (g.outs i).map Ten.real
  | .tgt => [.tgtT]
  | .tgt2 => [.tgtT2]

/-- `activation_tensor_parents` (memory_graph.py:131-142). -/
def producers : Ten → List Op
  | .srcT => [.src]
  | .real t => ((List.range g.n).filter fun i => decide (t ∈ g.outs i)).map Op.real
  | .tgtT => [.tgt]
  | .tgtT2 => [.tgt2]

/-- `total_size` of a tensor; dummies have size zero (memory_element.py:40). -/
def sizeOf : Ten → K
  | .real t => g.size t
  | _ => 0

/-- `memory_lbound_single_op` (memory_graph.py:80-89). -/
def lbound : K :=
  (((List.range g.n).map fun i =>
    if g.isInput i then ((g.outs i).dedup.map g.size).sum
    else ((g.outs i).dedup.map g.size).sum + ((g.ins i).dedup.map g.size).sum).max?).getD 0

end MemGraph

/-- `Cut` with its `MemoryElements` (cut.py:24-51, memory_element.py:54-66).  `op_record` is the set of the
elements of `op_order`. -/
structure Cut (K : Type) where
  order : List Op
  mem : List Ten
  total : K

/-- `clean_memory_for_next_step` (max_cut_astar.py:241-260). -/
def clean (g : MemGraph K) (c : Cut K) : Cut K :=
  let m := c.mem.filter fun t => !((g.children t).all fun o => decide (o ∈ c.order))
  ⟨c.order, m, (m.map g.sizeOf).sum⟩

/-- `can_expand` (max_cut_astar.py:262-276). -/
def canExpand (g : MemGraph K) (o : Op) (c : Cut K) : Bool :=
  decide (o ∉ c.order) && !c.mem.isEmpty && (g.parents o).all fun t => decide (t ∈ (clean g c).mem)

/-- Candidates of `expand` (max_cut_astar.py:290-295). -/
def candidates (g : MemGraph K) (cc : Cut K) : List Op :=
  cc.mem.foldl (fun acc t =>
    acc ++ (g.children t).filter fun o => canExpand g o cc && decide (o ∉ acc)) []

/-- `expand` (max_cut_astar.py:278-312). -/
def expand (g : MemGraph K) (c : Cut K) : List (Cut K) :=
  let cc := clean g c
  (candidates g cc).map fun o =>
    ⟨cc.order ++ [o], (cc.mem ++ g.outsOf o).dedup, cc.total + ((g.outsOf o).dedup.map g.sizeOf).sum⟩

/-- `is_pivot` (max_cut_astar.py:314-331). -/
def isPivot (g : MemGraph K) (c : Cut K) : Bool :=
  decide (((clean g c).mem.flatMap g.producers).dedup.length = 1)

/-- `next_cut == self.target_cut`: equality of the sets of tensors (cut.py:62-75, max_cut_astar.py:123-124, 162). -/
def isTarget (c : Cut K) : Bool :=
  c.mem.all (fun t => decide (t = .tgtT ∨ t = .tgtT2)) && decide (Ten.tgtT ∈ c.mem) && decide (Ten.tgtT2 ∈ c.mem)

/-- An element of the open list with its cost and route (dictionaries keyed by the identity of the cut:
cut.py:77-78). -/
structure Entry (K : Type) where
  cut : Cut K
  cost : K
  route : List (Cut K)

/-- The search loop of `solve` (max_cut_astar.py:144-197).  Cuts are hashed by identity, so a new cut is
never found in the closed or open list and both tests always succeed.  `pick` is `_get_cut_to_expand`
(218-239): the order of equal keys depends on the iteration order of a set, so it is a parameter, which may
depend on the iteration.  `erase`: the open list without the chosen element. -/
def search (g : MemGraph K) (pick : ℕ → List (Entry K) → Option (ℕ × Entry K)) :
    ℕ → ℕ → List (Entry K) → Option (Entry K)
  | 0, _, _ => none
  | fuel + 1, k, opens =>
    match pick k opens with
    | none => none
    | some (i, e) =>
      if isTarget e.cut then some e
      else
        let rest := if isPivot g e.cut then [] else opens.eraseIdx i
        let new := (expand g e.cut).map fun c => ⟨c, max e.cost c.total, c :: e.route⟩
        search g pick fuel (k + 1) (rest ++ new)

/-- `src_cut` (max_cut_astar.py:122). -/
def srcCut : Cut K := ⟨[.src], [.srcT], 0⟩

/-- `_remove_dummy_nodes_from_path` (max_cut_astar.py:397-408). -/
def removeDummies (o : List Op) : List ℕ :=
  o.filterMap fun x => match x with | .real i => some i | _ => none

/-- `_remove_dummy_tensors_from_cut` (max_cut_astar.py:410-424): order, live tensors and their size. -/
def removeDummyTensors (g : MemGraph K) (c : Cut K) : Cut K :=
  let m := c.mem.filter fun t => match t with | .real _ => true | _ => false
  ⟨c.order, m, (m.map g.sizeOf).sum⟩

/-- What a search returns. -/
structure Result (K : Type) where
  schedule : List ℕ
  cost : K
  cuts : List (Cut K)

/-- `solve` (max_cut_astar.py:126-197). -/
def solve (g : MemGraph K) (pick : ℕ → List (Entry K) → Option (ℕ × Entry K)) (iterLimit : ℕ) : Option (Result K) :=
  (search g pick iterLimit 0 [⟨srcCut, 0, [srcCut]⟩]).map fun e =>
    ⟨removeDummies e.cut.order, e.cost, e.route.map (removeDummyTensors g)⟩

/-- The loop of `compute_graph_max_cut` (compute_graph_max_cut.py:46-76).  `solver it estimate`: the call of
iteration `it`; `timeout it`: that call raises `TimeoutError` (never in iteration 0).  Outer `none`: the
critical error of line 59. -/
def maxCutLoop (solver : ℕ → K → Option (Result K)) (timeout : ℕ → Bool) (eps : K) :
    ℕ → ℕ → K → K → Option (Result K) → Option (Option (Result K))
  | 0, _, _, _, last => some last
  | fuel + 1, it, l, u, last =>
    let est := (u + l) / 2
    if it ≠ 0 ∧ timeout it = true then
      match last with
      | none => none
      | some r => some (some r)
    else
      match solver it est with
      | none => maxCutLoop solver timeout eps fuel (it + 1) est u last
      | some r =>
        let u' := min est r.cost
        if l * (1 + eps) ≥ u' then some (some r)
        else maxCutLoop solver timeout eps fuel (it + 1) l u' (some r)

/-- `compute_graph_max_cut` (compute_graph_max_cut.py:28-76); `some none`: the result `(None, 0, None)`.
`pick it estimate` is the choice of cuts in the search of iteration `it`. -/
def computeMaxCut (g : MemGraph K) (pick : ℕ → K → ℕ → List (Entry K) → Option (ℕ × Entry K))
    (timeout : ℕ → Bool) (nIter astarIter : ℕ) (eps : K) : Option (Option (Result K)) :=
  maxCutLoop (fun it est => solve g (pick it est) astarIter) timeout eps nIter 0 g.lbound
    (2 * (g.tensors.map g.size).sum - g.lbound) none

end MCT.MaxCut
