import Mathlib.Algebra.Order.Field.Basic
import Mathlib.Algebra.Order.BigOperators.Group.List
import Mathlib.Order.WithBot
import Mathlib.Data.List.Dedup

/-!
# Mixed precision: resource utilization, the integer program, the search, refinement

Models `core/common/mixed_precision/*` and the candidate queries of
`core/common/graph/base_node.py` / `base_graph.py`.

Nodes are numbered by their position in a topological order of the graph.
A mixed-precision configuration (a Python dict from configurable nodes to candidate indices) is a
function from node numbers to candidate indices; only its values at configurable nodes are read.
Exceptions are `none`.
-/

namespace MCT.MP

/-! ### Networks -/

/-- `ActivationQuantizationMode` (core/common/quantization/node_quantization_config.py:31-39). -/
inductive ActMode
  | quant | flnQuant | preserve | noQuant | flnNoQuant
  deriving DecidableEq, Repr

/-- A quantization candidate of a node: activation bits and, for each weight attribute of the node,
its bits (candidate_node_quantization_config.py:23-50).  Simplification: the candidates of one node
differ in bit-widths only. -/
structure Cand where
  aBits : ℕ
  wBits : List ℕ
  deriving DecidableEq, Repr

/-- The parts of a graph node the resource computation reads (core/common/graph/base_node.py:44-110).
`attrs`: size and "quantization enabled" of each weight attribute; `kernel`: position of the kernel;
`inner`: the node is inside a fused operation; `prev`: its predecessors.
Simplification: whether an attribute/activation is quantized is a property of the node (the code
checks that all candidates agree, base_node.py:189-191, 237-243). -/
structure Node where
  reuse : Bool
  attrs : List (ℕ × Bool)
  kernel : Option ℕ
  cands : List Cand
  mode : ActMode
  actSize : ℕ
  inner : Bool
  macs : ℕ
  prev : List ℕ
  deriving Repr

/-- A graph with its memory cuts: each cut is the list of nodes whose outputs are alive
(resource_utilization_calculator.py:141-159). -/
structure Net where
  nodes : List Node
  cuts : List (List ℕ)

/-- All the elements of a list are equal. -/
def allEqual : List ℕ → Bool
  | [] => true
  | a :: l => l.all (fun b => decide (b = a))

/-- Bits of attribute `k` in a candidate. -/
def Cand.w (c : Cand) (k : ℕ) : ℕ := c.wBits.getD k 0

/-- `is_configurable_weight` (base_node.py:247-257). -/
def Node.confWeight (n : Node) (k : ℕ) : Bool :=
  match n.attrs[k]? with
  | some (_, q) => q && !allEqual (n.cands.map fun c => c.w k)
  | none => false

/-- `has_configurable_activation` (base_node.py:267-274). -/
def Node.confAct (n : Node) : Bool :=
  decide (n.mode = .quant) && !allEqual (n.cands.map Cand.aBits)

/-- Is the kernel configurable and the node not reused (base_graph.py:553-573). -/
def Node.confKernel (n : Node) : Bool :=
  match n.kernel with
  | some k => n.confWeight k && !n.reuse
  | none => false

/-- Member of `get_configurable_sorted_nodes` (base_graph.py:610-630): configurable activation, or a
configurable kernel of a node that is not reused. -/
def Node.conf (n : Node) : Bool := n.confAct || n.confKernel

/-- `get_configurable_sorted_nodes` (base_graph.py:610-647). -/
def Net.confNodes (net : Net) : List ℕ :=
  (List.range net.nodes.length).filter fun i =>
    match net.nodes[i]? with
    | some n => n.conf
    | none => false

/-- `FLOAT_BITWIDTH` (constants.py:55). -/
def floatBits : ℕ := 32

/-- The bits common to all the candidates; `none` (ValueError) if they differ
(resource_utilization_calculator.py:712-718, 752-758). -/
def uniqueBits (bs : List ℕ) : Option ℕ :=
  match bs.dedup with
  | [b] => some b
  | _ => none

/-- `_get_weight_nbits` in custom mode (resource_utilization_calculator.py:722-760): the selected
candidate of a configured node, else the only candidate. -/
def Net.weightBits (net : Net) (cfg : ℕ → ℕ) (i k : ℕ) : Option ℕ :=
  match net.nodes[i]? with
  | none => none
  | some n =>
    match n.attrs[k]? with
    | none => none
    | some (_, q) =>
      if n.conf then
        match n.cands[cfg i]? with
        | some c => some (if q then c.w k else floatBits)
        | none => none
      else if q then uniqueBits (n.cands.map fun c => c.w k)
      else some floatBits

/-- The weight attributes counted for node `i` (criterion AnyQuantizedNonFused,
resource_utilization_calculator.py:589-634): positions of quantized attributes of a node that is not
reused. -/
def Node.countedAttrs (n : Node) : List (ℕ × ℕ) :=
  if n.reuse then []
  else ((List.range n.attrs.length).zip n.attrs).filterMap fun p =>
    if p.2.2 then some (p.1, p.2.1) else none

variable {K : Type*} [Field K]

/-- Sum of optional values; one exception aborts the sum. -/
def sumM {α : Type*} (f : α → Option K) (l : List α) : Option K := (l.mapM f).map List.sum

/-- `compute_node_weights_utilization` (resource_utilization_calculator.py:278-323). -/
def Net.nodeWeights (net : Net) (cfg : ℕ → ℕ) (i : ℕ) : Option K :=
  match net.nodes[i]? with
  | none => none
  | some n => sumM (fun p => (net.weightBits cfg i p.1).map fun (b : ℕ) => (p.2 : K) * (b : K) / 8)
      n.countedAttrs

/-- `compute_weights_utilization` (resource_utilization_calculator.py:242-276): total bytes. -/
def Net.weights (net : Net) (cfg : ℕ → ℕ) : Option K :=
  sumM (net.nodeWeights cfg) (List.range net.nodes.length)

/-- `retrieve_preserved_quantization_node` (base_graph.py:701-716); the loop is bounded by the number
of nodes (the graph is acyclic). `none`: assertion error. -/
def Net.preserved (net : Net) : ℕ → ℕ → Option ℕ
  | 0, _ => none
  | fuel + 1, i =>
    match net.nodes[i]? with
    | none => none
    | some n =>
      if n.mode = .preserve then
        match n.prev with
        | [p] => net.preserved fuel p
        | _ => none
      else some i

/-- `_extract_qc` and `_get_activation_nbits` in custom mode
(resource_utilization_calculator.py:346-365, 684-718). -/
def Net.actBits (net : Net) (cfg : ℕ → ℕ) (i : ℕ) : Option ℕ :=
  match net.preserved (net.nodes.length + 1) i with
  | none => none
  | some j =>
    match net.nodes[j]? with
    | none => none
    | some n =>
      if n.conf then
        match n.cands[cfg j]? with
        | some c => some (if n.mode = .quant then c.aBits else floatBits)
        | none => none
      else if n.mode = .quant then uniqueBits (n.cands.map Cand.aBits)
      else some floatBits

/-- `compute_node_activation_tensor_utilization` (resource_utilization_calculator.py:444-479). -/
def Net.nodeAct (net : Net) (cfg : ℕ → ℕ) (i : ℕ) : Option K :=
  match net.nodes[i]? with
  | none => none
  | some n => (net.actBits cfg i).map fun (b : ℕ) => (n.actSize : K) * (b : K) / 8

/-- Selected by criterion AnyQuantizedNonFused (resource_utilization_calculator.py:669-673). -/
def Net.isActTarget (net : Net) (i : ℕ) : Bool :=
  match net.nodes[i]? with
  | none => false
  | some n => (decide (n.mode = .quant) || decide (n.mode = .preserve)) && !n.inner

/-- `_get_target_activation_nodes` (resource_utilization_calculator.py:651-682), including the
`nodes or self.graph.nodes` default. -/
def Net.actTargets (net : Net) (nodes : List ℕ) : List ℕ :=
  (if nodes = [] then List.range net.nodes.length else nodes).filter net.isActTarget

/-- Utilization of one cut; the per-node dictionary removes duplicates
(resource_utilization_calculator.py:396-404). -/
def Net.cutUtil (net : Net) (cfg : ℕ → ℕ) (cut : List ℕ) : Option K :=
  sumM (net.nodeAct cfg) (net.actTargets cut).dedup

/-- The cuts that have a utilization entry (resource_utilization_calculator.py:390-399). -/
def Net.usedCuts (net : Net) : List (List ℕ) :=
  if net.actTargets [] = [] then [] else net.cuts.filter fun c => decide (net.actTargets c ≠ [])

/-- `compute_activation_utilization_by_cut`, the utilization per cut
(resource_utilization_calculator.py:367-408). -/
def Net.actPerCut (net : Net) (cfg : ℕ → ℕ) : Option (List K) := net.usedCuts.mapM (net.cutUtil cfg)

/-- Python `max` of a list; `none` on an empty list (ValueError). -/
def listMax [LinearOrder K] : List K → Option K
  | [] => none
  | x :: xs => some (xs.foldl max x)

/-- Total activation utilization (resource_utilization_calculator.py:390-392, 406-408). -/
def Net.actTotal [LinearOrder K] (net : Net) (cfg : ℕ → ℕ) : Option K :=
  if net.actTargets [] = [] then some 0
  else (net.actPerCut cfg).bind listMax

/-- `compute_node_bops` (resource_utilization_calculator.py:512-564); a node without kernel or MACs
counts 0; the node must have exactly one predecessor. -/
def Net.nodeBops (net : Net) (cfg : ℕ → ℕ) (i : ℕ) : Option K :=
  match net.nodes[i]? with
  | none => none
  | some n =>
    match n.kernel with
    | none => some 0
    | some k =>
      if n.macs = 0 then some 0
      else match n.prev with
        | [a] =>
          match net.actBits cfg a, net.weightBits cfg i k with
          | some ab, some wb => some ((ab : K) * (wb : K) * (n.macs : K))
          | _, _ => none
        | _ => none

/-- `compute_bops` (resource_utilization_calculator.py:481-510). -/
def Net.bops (net : Net) (cfg : ℕ → ℕ) : Option K :=
  sumM (net.nodeBops cfg) (List.range net.nodes.length)

/-! ### Resource utilization targets -/

/-- `RUTarget` (resource_utilization.py:21-35). -/
inductive Target
  | weights | activation | total | bops
  deriving DecidableEq, Repr

/-- `ResourceUtilization` (resource_utilization.py:38-52); `⊤` is `np.inf`. -/
structure RU (K : Type*) where
  weights : WithTop K
  activation : WithTop K
  total : WithTop K
  bops : WithTop K

/-- Field access by target (resource_utilization.py:66-81). -/
def RU.get (r : RU K) : Target → WithTop K
  | .weights => r.weights
  | .activation => r.activation
  | .total => r.total
  | .bops => r.bops

/-- The four targets in the order of `get_resource_utilization_dict` (resource_utilization.py:76-79). -/
def allTargets : List Target := [.weights, .activation, .total, .bops]

/-- `get_restricted_targets` (resource_utilization.py:98-100). -/
def RU.restricted [LinearOrder K] (r : RU K) : List Target :=
  allTargets.filter fun t => decide (r.get t < ⊤)

/-- `is_satisfied_by` (resource_utilization.py:83-96). -/
def RU.satisfiedBy [LinearOrder K] (target ru : RU K) : Bool :=
  decide (ru.weights ≤ target.weights) && decide (ru.activation ≤ target.activation) &&
  decide (ru.total ≤ target.total) && decide (ru.bops ≤ target.bops)

/-- The requested value or infinity when the target was not requested
(resource_utilization_calculator.py:215-236). -/
def ifReq (ts : List Target) (t : Target) (v : Option K) : Option (WithTop K) :=
  if t ∈ ts then v.map (fun x : K => (x : WithTop K)) else some ⊤

/-- `compute_resource_utilization` (resource_utilization_calculator.py:161-240), for the requested
targets. -/
def Net.computeRU [LinearOrder K] (net : Net) (ts : List Target) (cfg : ℕ → ℕ) : Option (RU K) :=
  match ifReq ts .weights (net.weights (K := K) cfg), ifReq ts .activation (net.actTotal cfg),
    ifReq ts .total ((net.weights (K := K) cfg).bind fun w => (net.actTotal cfg).map fun a => w + a),
    ifReq ts .bops (net.bops cfg) with
  | some w, some a, some t, some b => some ⟨w, a, t, b⟩
  | _, _, _, _ => none

/-- `MixedPrecisionRUHelper.compute_utilization` (mixed_precision_ru_helper.py:38-74): a vector per
target — one element for weights and BOPS, one per cut for activation and total.  The total
activation is computed as well (and may raise). -/
def Net.utilVec [LinearOrder K] (net : Net) (cfg : ℕ → ℕ) : Target → Option (List K)
  | .weights => (net.weights cfg).map fun w => [w]
  | .activation => (net.actTotal (K := K) cfg).bind fun _ => net.actPerCut cfg
  | .total => (net.actTotal (K := K) cfg).bind fun _ => (net.weights cfg).bind fun w =>
      (net.actPerCut cfg).map fun l => l.map fun a => a + w
  | .bops => (net.bops cfg).map fun b => [b]

/-! ### Minimal and maximal candidates -/

/-- The tuple compared by `find_min_candidate_index` (base_node.py:555-557). -/
def Cand.tuple (c : Cand) : List ℕ := c.aBits :: c.wBits

/-- Lexicographic comparison of Python tuples of numbers. -/
def lexLt : List ℕ → List ℕ → Bool
  | [], [] => false
  | [], _ :: _ => true
  | _ :: _, [] => false
  | a :: as, b :: bs => decide (a < b) || (decide (a = b) && lexLt as bs)

/-- Python `min` of a non-empty list of tuples: the first smallest one. -/
def lexMin : List (List ℕ) → Option (List ℕ)
  | [] => none
  | t :: ts => some (ts.foldl (fun m u => if lexLt u m then u else m) t)

/-- Python `max` of a non-empty list of tuples. -/
def lexMax : List (List ℕ) → Option (List ℕ)
  | [] => none
  | t :: ts => some (ts.foldl (fun m u => if lexLt m u then u else m) t)

/-- `find_min_candidate_index` (base_node.py:550-563); `none`: ValueError. -/
def findMin (cands : List Cand) : Option ℕ :=
  let ts := cands.map Cand.tuple
  match lexMin ts with
  | none => none
  | some m =>
    let idx := (List.range ts.length).filter fun i => decide (ts[i]? = some m)
    if idx.length > 1 ∨ (List.range m.length).any (fun i => ts.any fun t =>
        decide (t.getD i 0 < m.getD i 0)) then none
    else idx.head?

/-- `find_max_candidate_index` (base_node.py:565-578). -/
def findMax (cands : List Cand) : Option ℕ :=
  let ts := cands.map Cand.tuple
  match lexMax ts with
  | none => none
  | some m =>
    let idx := (List.range ts.length).filter fun i => decide (ts[i]? = some m)
    if idx.length > 1 ∨ (List.range m.length).any (fun i => ts.any fun t =>
        decide (t.getD i 0 > m.getD i 0)) then none
    else idx.head?

/-! ### The integer program -/

/-- The problem given to the solver (linear_programming.py:82-148): layers, the number of candidates
of each, sensitivities, and the rows `(coefficients, bound)` of the resource constraints. -/
structure LP (K : Type*) where
  layers : List ℕ
  ncand : ℕ → ℕ
  sens : ℕ → ℕ → K
  rows : List ((ℕ → ℕ → K) × K)

/-- Sum over the candidates of a layer, weighted by the indicators. -/
def dotRow (x : ℕ → ℤ) (v : ℕ → K) (n : ℕ) : K := ((List.range n).map fun c => (x c : K) * v c).sum

/-- `_formalize_problem` and `_add_ru_constraints` (linear_programming.py:101-148): the indicator
variables are integers in [0, 1], the objective variables are non-negative. -/
structure LP.Feasible [LinearOrder K] (p : LP K) (x : ℕ → ℕ → ℤ) (s : ℕ → K) : Prop where
  lo : ∀ l ∈ p.layers, ∀ c < p.ncand l, 0 ≤ x l c
  hi : ∀ l ∈ p.layers, ∀ c < p.ncand l, x l c ≤ 1
  snonneg : ∀ l ∈ p.layers, 0 ≤ s l
  obj : ∀ l ∈ p.layers, dotRow (x l) (p.sens l) (p.ncand l) = s l
  one : ∀ l ∈ p.layers, ((List.range (p.ncand l)).map (x l)).sum = 1
  rows : ∀ r ∈ p.rows, (p.layers.map fun l => dotRow (x l) (r.1 l) (p.ncand l)).sum ≤ r.2

/-- The objective (linear_programming.py:110-111). -/
def LP.objective (p : LP K) (s : ℕ → K) : K := (p.layers.map s).sum

/-- The contract of the external solver (linear_programming.py:56-61): an optimal solution, or an
error exactly when the problem has no solution.  Rounding and the time limit are not modelled. -/
structure SolverOk [LinearOrder K] (solve : LP K → Option ((ℕ → ℕ → ℤ) × (ℕ → K))) : Prop where
  some : ∀ p x s, solve p = some (x, s) → p.Feasible x s ∧
    ∀ x' s', p.Feasible x' s' → p.objective s ≤ p.objective s'
  none : ∀ p, solve p = none → ∀ x s, ¬ p.Feasible x s

/-- `[v.varValue for v in vars].index(1.)` (linear_programming.py:64-66); `none`: ValueError. -/
def firstOne (x : ℕ → ℤ) (n : ℕ) : Option ℕ := (List.range n).find? fun c => decide (x c = 1)

/-- `MixedPrecisionIntegerLPSolver.run` (linear_programming.py:46-67): a configuration. -/
def runSolver (solve : LP K → Option ((ℕ → ℕ → ℤ) × (ℕ → K))) (p : LP K) : Option (ℕ → ℕ) :=
  match solve p with
  | none => none
  | some (x, _) =>
    match p.layers.mapM fun l => firstOne (x l) (p.ncand l) with
    | none => none
    | some _ => some fun l => (firstOne (x l) (p.ncand l)).getD 0

/-! ### The search -/

/-- Change one entry of a configuration (`cfg.copy(); cfg[node] = candidate_idx`,
mixed_precision_search_manager.py:262-263, 273-288). -/
def setCfg (cfg : ℕ → ℕ) (l c : ℕ) : ℕ → ℕ := fun j => if j = l then c else cfg j

/-- A search space: the layers the search assigns, their numbers of candidates, and the utilization
vector per target of every assignment (`compute_utilization` after reconstruction of the original
configuration when a virtual graph is used, mixed_precision_search_manager.py:244-270). -/
structure Space (K : Type*) where
  layers : List ℕ
  ncand : ℕ → ℕ
  util : (ℕ → ℕ) → Target → Option (List K)

/-- Coefficient of candidate `c` of layer `l` in element `e` of target `t`
(mixed_precision_search_manager.py:256-270): the utilization of the minimal configuration with this
one layer changed, minus the utilization of the minimal configuration. -/
def Space.coef (sp : Space K) (m : ℕ → ℕ) (t : Target) (e l c : ℕ) : Option K :=
  match sp.util m t, sp.util (setCfg m l c) t with
  | some u, some v => some (v.getD e 0 - u.getD e 0)
  | _, _ => none

/-- All the utilization queries of the search succeed. -/
def Space.defined (sp : Space K) (m : ℕ → ℕ) (ts : List Target) : Bool :=
  ts.all fun t => (sp.util m t).isSome &&
    sp.layers.all fun l => (List.range (sp.ncand l)).all fun c => (sp.util (setCfg m l c) t).isSome

/-- Value of a restricted target as a number. -/
def RU.num (r : RU K) (t : Target) : K := (r.get t).untopD 0

/-- Is the minimal configuration over the target in some element
(mixed_precision_search_manager.py:136-145). -/
def Space.unsatisfiable [LinearOrder K] (sp : Space K) (m : ℕ → ℕ) (target : RU K) : Bool :=
  target.restricted.any fun t =>
    ((sp.util m t).getD []).any fun u => decide (target.num t - u < 0)

/-- The constraint rows of the problem: one row per element of each restricted target
(mixed_precision_search_manager.py:117-147, 244-270; linear_programming.py:124-148). -/
def Space.rows [LinearOrder K] (sp : Space K) (m : ℕ → ℕ) (target : RU K) :
    List ((ℕ → ℕ → K) × K) :=
  target.restricted.flatMap fun t =>
    (List.range ((sp.util m t).getD []).length).map fun e =>
      (fun l c => (sp.coef m t e l c).getD 0, target.num t - ((sp.util m t).getD []).getD e 0)

/-- What can go wrong in a search. -/
inductive SearchError
  | unsatisfiable | noSolution | other
  deriving DecidableEq, Repr

/-- `_prepare_and_run_solver` (mixed_precision_search_manager.py:102-115), with the sensitivities
given. -/
def Space.search [LinearOrder K] (sp : Space K)
    (solve : LP K → Option ((ℕ → ℕ → ℤ) × (ℕ → K)))
    (m : ℕ → ℕ) (target : RU K) (sens : ℕ → ℕ → K) : Except SearchError (ℕ → ℕ) :=
  if !sp.defined m target.restricted then .error .other
  else if sp.unsatisfiable m target then .error .unsatisfiable
  else
    match runSolver solve ⟨sp.layers, sp.ncand, sens, sp.rows m target⟩ with
    | none => .error .noSolution
    | some cfg => .ok cfg

/-- The search space of a network without a virtual graph (mixed_precision_search_manager.py:75-89):
layers are the configurable nodes. -/
def Net.space [LinearOrder K] (net : Net) : Space K where
  layers := net.confNodes
  ncand := fun i => match net.nodes[i]? with | some n => n.cands.length | none => 0
  util := fun cfg t => net.utilVec cfg t

/-- `get_min_candidates_config` (base_graph.py:649-663). -/
def Net.minCfg (net : Net) : Option (ℕ → ℕ) :=
  match net.confNodes.mapM fun i => match net.nodes[i]? with
      | some n => findMin n.cands | none => none with
  | none => none
  | some _ => some fun i => match net.nodes[i]? with
      | some n => (findMin n.cands).getD 0 | none => 0

/-! ### Sensitivities -/

/-- `_finalize_distance_metric` (mixed_precision_search_manager.py:310-332): divide everything by the
largest value when it reaches the threshold. -/
def finalizeMetric [LinearOrder K] (thr : K) (layers : List ℕ) (ncand : ℕ → ℕ) (sens : ℕ → ℕ → K) :
    Option (ℕ → ℕ → K) :=
  match listMax (layers.flatMap fun l => (List.range (ncand l)).map (sens l)) with
  | none => none
  | some mx => some (if thr ≤ mx then fun l c => sens l c / mx else sens)

/-- `ensure_maxbit_minimal_metric` (mixed_precision_search_manager.py:173-181). -/
def ensureMaxMinimal [LinearOrder K] (eps : Option K) (maxInd : ℕ) (v : ℕ → K) : ℕ → K :=
  match eps with
  | none => v
  | some e => fun c => if c = maxInd then v maxInd else max (v c) (v maxInd + e)

/-! ### Greedy refinement -/

/-- `_get_valid_candidates_indices` (solution_refinement_procedure.py:112-194). -/
def validCands (cands : List Cand) (cur : ℕ) (aRestr wRestr : Bool) : List ℕ :=
  match cands[cur]? with
  | none => []
  | some c0 => (List.range cands.length).filter fun i =>
    match cands[i]? with
    | none => false
    | some c =>
      let ks := List.range c0.wBits.length
      if c.aBits = c0.aBits ∧ ks.all (fun k => decide (c.w k = c0.w k)) then false
      else
        (ks.all fun k => if wRestr then decide (c0.w k ≤ c.w k) else decide (c.w k = c0.w k)) &&
        (if aRestr then decide (c0.aBits ≤ c.aBits) else decide (c.aBits = c0.aBits))

/-- The sort key `(total, weights, activation)` (solution_refinement_procedure.py:92-94). -/
def RU.keyLt [LinearOrder K] (a b : RU K) : Bool :=
  decide (a.total < b.total) || (decide (a.total = b.total) &&
    (decide (a.weights < b.weights) || (decide (a.weights = b.weights) &&
      decide (a.activation < b.activation))))

/-- First element with the smallest key: `sorted(..)[0]` (stable sort). -/
def firstBest [LinearOrder K] {α : Type*} : List (α × RU K) → Option (α × RU K)
  | [] => none
  | x :: xs => some (xs.foldl (fun b y => if y.2.keyLt b.2 then y else b) x)

/-- The best feasible upgrade of one node (solution_refinement_procedure.py:66-97). `ru` computes the
utilization of a configuration (`none`: exception). -/
def nodeUpgrade [LinearOrder K] (net : Net) (ru : (ℕ → ℕ) → Option (RU K)) (target : RU K)
    (aRestr wRestr : Bool) (sol : ℕ → ℕ) (i : ℕ) : Option (Option (ℕ × RU K)) :=
  match net.nodes[i]? with
  | none => none
  | some n =>
    match findMax n.cands with
    | none => none
    | some mx =>
      if sol i = mx then some none
      else
        match (validCands n.cands (sol i) aRestr wRestr).mapM fun c =>
            (ru (setCfg sol i c)).map fun r => (c, r) with
        | none => none
        | some l => some (firstBest (l.filter fun p => target.satisfiedBy p.2))

/-- One round (solution_refinement_procedure.py:59-111): `none` exception, `some none` no change. -/
def refineRound [LinearOrder K] (net : Net) (ru : (ℕ → ℕ) → Option (RU K)) (target : RU K)
    (aRestr wRestr : Bool) (sol : ℕ → ℕ) : Option (Option (ℕ → ℕ)) :=
  match net.confNodes.mapM fun i => (nodeUpgrade net ru target aRestr wRestr sol i).map fun u =>
      u.map fun p => ((i, p.1), p.2) with
  | none => none
  | some us =>
    match firstBest (us.filterMap id) with
    | none => some none
    | some ((i, c), _) => some (some (setCfg sol i c))

/-- The while loop (solution_refinement_procedure.py:57-111) with a bound on the number of rounds;
`none`: exception or the bound was reached. -/
def refineLoop [LinearOrder K] (net : Net) (ru : (ℕ → ℕ) → Option (RU K)) (target : RU K)
    (aRestr wRestr : Bool) : ℕ → (ℕ → ℕ) → Option (ℕ → ℕ)
  | 0, _ => none
  | fuel + 1, sol =>
    match refineRound net ru target aRestr wRestr sol with
    | none => none
    | some none => some sol
    | some (some sol') => refineLoop net ru target aRestr wRestr fuel sol'

/-- `greedy_solution_refinement_procedure` (solution_refinement_procedure.py:27-119). -/
def refine [LinearOrder K] (net : Net) (target : RU K) (fuel : ℕ) (sol : ℕ → ℕ) :
    Option (ℕ → ℕ) :=
  if .bops ∈ target.restricted then some sol
  else
    let aR := decide (.activation ∈ target.restricted) || decide (.total ∈ target.restricted)
    let wR := decide (.weights ∈ target.restricted) || decide (.total ∈ target.restricted)
    refineLoop net (net.computeRU target.restricted) target aR wR fuel sol

/-! ### Applying the configuration -/

/-- `'_'.join(name.split('_')[:-2])` on a name given by its `_`-separated parts
(bit_width_setter.py:48). -/
def dropTwo (parts : List String) : List String := parts.take (parts.length - 2)

/-- `set_bit_widths` in mixed-precision mode (bit_width_setter.py:44-70): the candidate index used for
the node `i`; nodes that are not in the configuration use candidate 0 for what they quantize.
`name i` is the node's name split at `_`. -/
def Net.finalIndex (net : Net) (name : ℕ → List String) (cfg : ℕ → ℕ) (i : ℕ) : ℕ :=
  match net.nodes[i]? with
  | none => 0
  | some n =>
    let nm := if n.reuse then dropTwo (name i) else name i
    match net.confNodes.find? fun j => decide (name j = nm) with
    | some j => cfg j
    | none => 0

end MCT.MP
