import Verif.MP.Model
import Mathlib.Data.List.Sort

/-!
# The virtual graph of a search under a bit-operations target

Models `core/common/graph/virtual_activation_weights_node.py`,
`core/common/substitutions/weights_activation_split.py`,
`core/common/substitutions/virtual_activation_weights_composition.py` and
`ConfigReconstructionHelper` (`core/common/mixed_precision/mixed_precision_search_manager.py:335-526`).

Every node with a kernel is split in a weights node followed by an activation node; then a weights
node is joined with the activation that feeds it, when this activation feeds nothing else.
Simplifications: two quantization configurations of the same node are equal when their bits are;
a joined node does not list the weights of its activation node, which are not configurable (line
163-168 refuses the others).
-/

namespace MCT.MP

/-- A node of the virtual graph: an original node, the weights part or the activation part of a node
with a kernel, or the activation `a` joined with the weights of `i`
(virtual_activation_weights_node.py:25-205). -/
inductive VNode
  | reg (i : ℕ) | wts (i : ℕ) | act (i : ℕ) | pair (a i : ℕ)
  deriving DecidableEq, Repr

/-- Keep the first candidate of each value of `f`. -/
def firstBy {β : Type} [DecidableEq β] (f : Cand → β) : List β → List Cand → List Cand
  | _, [] => []
  | seen, c :: cs => if f c ∈ seen then firstBy f seen cs else c :: firstBy f (f c :: seen) cs

/-- `get_unique_weights_candidates` (base_node.py:580-603). -/
def uniqueW (k : ℕ) (cs : List Cand) : List Cand := firstBy (fun c => c.w k) [] cs

/-- `get_unique_activation_candidates` (base_node.py:605-619). -/
def uniqueA (cs : List Cand) : List Cand := firstBy Cand.aBits [] cs

/-- `has_any_configurable_weight` (base_node.py:259-265). -/
def Node.anyConfWeight (n : Node) : Bool := (List.range n.attrs.length).any n.confWeight

/-- `VirtualSplitWeightsNode` (virtual_activation_weights_node.py:57-84). -/
def Node.wtsPart (n : Node) (k : ℕ) : Node :=
  { n with cands := (uniqueW k n.cands).map fun c => { c with aBits := floatBits }, mode := .noQuant }

/-- `VirtualSplitActivationNode` (virtual_activation_weights_node.py:87-117): no weights, no kernel. -/
def Node.actPart (n : Node) : Node :=
  { n with cands := uniqueA n.cands, attrs := [], kernel := none }

/-- The node whose activation feeds a weights node, in the graph after the split: an original node, or
the activation part of a node with a kernel. -/
def Node.feeding (n : Node) : Node := if n.kernel.isSome then n.actPart else n

/-- Sort key of the joined candidates (virtual_activation_weights_node.py:200-202): `c` comes before
`d` or has the same key. -/
def keyGe (k : ℕ) (c d : Cand) : Prop := d.w k < c.w k ∨ (d.w k = c.w k ∧ d.aBits ≤ c.aBits)

instance (k : ℕ) : DecidableRel (keyGe k) := fun c d => by unfold keyGe; infer_instance

/-- The candidates of a joined node: the product, sorted by kernel bits and then activation bits,
largest first (virtual_activation_weights_node.py:179-205). -/
def pairCands (k : ℕ) (as ws : List Cand) : List Cand :=
  (as.flatMap fun a => (uniqueW k ws).map fun w => ⟨a.aBits, w.wBits⟩).insertionSort (keyGe k)

/-- `VirtualActivationWeightsNode` (virtual_activation_weights_node.py:120-205), from the node that
feeds and the node with the kernel. -/
def Node.pair (na nw : Node) (k : ℕ) : Node :=
  { nw.wtsPart k with cands := pairCands k na.feeding.cands (nw.wtsPart k).cands, mode := na.mode }

/-- Number of outgoing edges of a node (one per reading position). -/
def Net.outDeg (net : Net) (j : ℕ) : ℕ := (net.nodes.flatMap Node.prev).count j

/-- `get_input_activation_if_composable` succeeds (virtual_activation_weights_composition.py:67-91). -/
def Net.single (net : Net) (a : ℕ) : Bool := decide (net.outDeg a ≤ 1)

/-- The activation of `j` was joined with the weights of the node it feeds. -/
def Net.joined (net : Net) (j : ℕ) : Bool :=
  net.single j && net.nodes.any fun n => n.kernel.isSome && decide (n.prev = [j])

/-- The nodes of the virtual graph that come from node `i` (weights_activation_split.py:34-87,
virtual_activation_weights_composition.py:27-64). -/
def Net.vpart (net : Net) (i : ℕ) : List VNode :=
  match net.nodes[i]? with
  | none => []
  | some n =>
    match n.kernel with
    | none => if net.joined i then [] else [.reg i]
    | some _ =>
      (match n.prev with
        | [a] => if net.single a then [.pair a i] else [.wts i]
        | _ => [.wts i]) ++
      (if net.joined i then [] else [.act i])

/-- The virtual graph's nodes, in a topological order. -/
def Net.vnodes (net : Net) : List VNode := (List.range net.nodes.length).flatMap net.vpart

/-- A virtual node as a graph node. -/
def Net.vnode (net : Net) : VNode → Option Node
  | .reg i => net.nodes[i]?
  | .wts i => (net.nodes[i]?).bind fun n => n.kernel.map fun k => n.wtsPart k
  | .act i => (net.nodes[i]?).map Node.actPart
  | .pair a i => (net.nodes[a]?).bind fun na => (net.nodes[i]?).bind fun nw =>
      nw.kernel.map fun k => na.pair nw k

/-- A node with both kernel and activation configurable has every combination of its bits
(weights_activation_split.py:55-71); `false`: critical error. -/
def Node.splitOk (n : Node) : Bool :=
  match n.kernel with
  | none => true
  | some k =>
    if n.confWeight k && n.confAct then
      (uniqueW k n.cands).all fun w => (uniqueA n.cands).all fun a =>
        n.cands.any fun c => decide (c.w k = w.w k) && decide (c.aBits = a.aBits)
    else true

/-- The checks when joining (virtual_activation_weights_node.py:146-168). -/
def Node.pairOk (na nw : Node) (k : ℕ) : Bool :=
  let conf := (List.range nw.attrs.length).filter (nw.wtsPart k).confWeight
  !(decide (1 < conf.length) || (decide (conf.length = 1) && !(nw.wtsPart k).confWeight k)) &&
  !(!na.feeding.attrs.isEmpty && na.feeding.anyConfWeight)

/-- The checks made while building the virtual graph; `false`: an exception. A weights node must have
one input (virtual_activation_weights_composition.py:80-82). -/
def Net.vcheck (net : Net) : Bool :=
  net.nodes.all fun n => n.splitOk &&
    match n.kernel with
    | none => true
    | some k =>
      match n.prev with
      | [a] =>
        match net.nodes[a]? with
        | none => false
        | some na => !net.single a || na.pairOk n k
      | _ => false

/-- `get_configurable_sorted_nodes` of the virtual graph (base_graph.py:610-630): positions. -/
def Net.vlayers (net : Net) : List ℕ :=
  (List.range net.vnodes.length).filter fun l =>
    match (net.vnodes[l]?).bind net.vnode with
    | some n => n.conf
    | none => false

/-! ### Reconstruction of a configuration of the original graph -/

/-- Positions of the candidates that satisfy `p`. -/
def positions (p : Cand → Bool) (cs : List Cand) : List ℕ :=
  (List.range cs.length).filter fun i => match cs[i]? with | some c => p c | none => false

/-- Original candidates with the activation of a virtual candidate
(mixed_precision_search_manager.py:468-475); `none`: ValueError. -/
def Net.matchAct (net : Net) (v : VNode) (i c : ℕ) : Option (Option (ℕ × List ℕ)) :=
  match net.vnode v, net.nodes[i]? with
  | some vn, some n =>
    match vn.cands[c]? with
    | none => none
    | some vc =>
      match positions (fun q => decide (q.aBits = vc.aBits)) n.cands with
      | [] => none
      | l => some (some (i, l))
  | _, _ => none

/-- `_retrieve_matching_orig_a_candidates` (mixed_precision_search_manager.py:438-475). -/
def Net.matchA (net : Net) (v : VNode) (c : ℕ) : Option (Option (ℕ × List ℕ)) :=
  match v with
  | .reg i => some (some (i, [c]))
  | .wts _ => some none
  | .act i => net.matchAct v i c
  | .pair a _ => net.matchAct v a c

/-- Original candidates with the configurable weights of a virtual candidate
(mixed_precision_search_manager.py:506-526). -/
def Net.matchWts (net : Net) (v : VNode) (i c : ℕ) : Option (Option (ℕ × List ℕ)) :=
  match net.vnode v, net.nodes[i]? with
  | some vn, some n =>
    match vn.cands[c]? with
    | none => none
    | some vc =>
      let ks := (List.range n.attrs.length).filter vn.confWeight
      match positions (fun q => ks.all fun k => decide (q.w k = vc.w k)) n.cands with
      | [] => none
      | l => some (some (i, l))
  | _, _ => none

/-- `_retrieve_matching_orig_w_candidates` (mixed_precision_search_manager.py:477-526). -/
def Net.matchW (net : Net) (v : VNode) (c : ℕ) : Option (Option (ℕ × List ℕ)) :=
  match v with
  | .reg i =>
    match net.nodes[i]? with
    | none => none
    | some n => if n.attrs.isEmpty then some none else some (some (i, [c]))
  | .act _ => some none
  | .wts i => net.matchWts v i c
  | .pair _ i => net.matchWts v i c

/-- The candidates a layer proposes for node `i`. -/
def pickFor (i : ℕ) : Option (Option (ℕ × List ℕ)) → Option (List ℕ)
  | some (some (j, cs)) => if j = i then some cs else none
  | _ => none

/-- The candidate lists collected for node `i` (mixed_precision_search_manager.py:361-374), by the
function `f` that retrieves them. -/
def Net.collect (net : Net) (f : VNode → ℕ → Option (Option (ℕ × List ℕ))) (vcfg : ℕ → ℕ) (i : ℕ) :
    List (List ℕ) :=
  net.vlayers.filterMap fun l =>
    match net.vnodes[l]? with
    | none => none
    | some v => pickFor i (f v (vcfg l))

/-- The candidate of a node from its activation candidates and its weights candidates
(mixed_precision_search_manager.py:376-408); `ca`, `cw`: its activation, some weight, is configurable.
`none`: an exception; `some none`: the node is not in the configuration. -/
def pickCommon (ca cw : Bool) : Option (List ℕ) → Option (List ℕ) → Option (Option ℕ)
  | some as, some ws =>
    match as.filter (fun c => decide (c ∈ ws)) with
    | [c] => some (some c)
    | _ => none
  | some as, none =>
    if cw then none
    else match as with
      | [c] => some (some c)
      | _ => none
  | none, some ws =>
    if ca then none
    else match ws with
      | [c] => some (some c)
      | _ => none
  | none, none => some none

/-- The entry of node `i` in the reconstructed configuration
(`reconstruct_full_configuration`, mixed_precision_search_manager.py:340-410). -/
def Net.reconAt (net : Net) (vcfg : ℕ → ℕ) (i : ℕ) : Option (Option ℕ) :=
  match net.nodes[i]? with
  | none => none
  | some n =>
    let as := if n.confAct then net.collect net.matchA vcfg i else []
    let ws := if n.anyConfWeight then net.collect net.matchW vcfg i else []
    if 1 < as.length ∨ 1 < ws.length then none
    else pickCommon n.confAct n.anyConfWeight as.head? ws.head?

/-- Every retrieval succeeds. -/
def Net.retrievable (net : Net) (vcfg : ℕ → ℕ) : Bool :=
  net.vlayers.all fun l =>
    match net.vnodes[l]? with
    | none => false
    | some v => (net.matchA v (vcfg l)).isSome && (net.matchW v (vcfg l)).isSome

/-- The entry of node `i` exists exactly when the node is configurable. -/
def Net.entryOk (net : Net) (vcfg : ℕ → ℕ) (i : ℕ) : Bool :=
  match net.nodes[i]?, net.reconAt vcfg i with
  | some n, some o => o.isSome == n.conf
  | _, _ => false

/-- `reconstruct_full_configuration` (mixed_precision_search_manager.py:340-410). The facade then reads
the entry of every configurable node and checks that there are no others
(mixed_precision_search_facade.py:104-106); that check is made here. -/
def Net.reconstruct (net : Net) (vcfg : ℕ → ℕ) : Option (ℕ → ℕ) :=
  if net.retrievable vcfg && (List.range net.nodes.length).all (net.entryOk vcfg) then
    some fun i => ((net.reconAt vcfg i).getD none).getD 0
  else none

/-! ### The search -/

variable {K : Type*} [Field K]

/-- The search space over the virtual graph: utilization is that of the original graph
(mixed_precision_search_manager.py:75-89, 244-270). -/
def Net.vspace [LinearOrder K] (net : Net) : Space K where
  layers := net.vlayers
  ncand := fun l => match (net.vnodes[l]?).bind net.vnode with | some n => n.cands.length | none => 0
  util := fun vcfg t => (net.reconstruct vcfg).bind fun cfg => net.utilVec cfg t

/-- `get_min_candidates_config` of the virtual graph (base_graph.py:649-663). -/
def Net.vminCfg (net : Net) : Option (ℕ → ℕ) :=
  match net.vlayers.mapM fun l => ((net.vnodes[l]?).bind net.vnode).bind fun n => findMin n.cands with
  | none => none
  | some _ => some fun l => (((net.vnodes[l]?).bind net.vnode).bind fun n => findMin n.cands).getD 0

/-- `_get_mp_graph` uses a virtual graph (mixed_precision_search_manager.py:213-233). -/
def Net.usesVirtual [LinearOrder K] (net : Net) (target : RU K) : Bool :=
  decide (.bops ∈ target.restricted) && net.nodes.any Node.confAct && net.nodes.any Node.anyConfWeight

/-- The search over the virtual graph, from its construction to the configuration of the original graph
(mixed_precision_search_manager.py:54-100). -/
def Net.vsearch [LinearOrder K] (net : Net) (solve : LP K → Option ((ℕ → ℕ → ℤ) × (ℕ → K)))
    (target : RU K) (sens : ℕ → ℕ → K) : Except SearchError (ℕ → ℕ) :=
  if !net.vcheck then .error .other
  else
    match net.vminCfg with
    | none => .error .other
    | some m =>
      match (net.vspace (K := K)).search solve m target sens with
      | .error e => .error e
      | .ok v =>
        match net.reconstruct v with
        | none => .error .other
        | some cfg => .ok cfg

/-- `MixedPrecisionSearchManager.search` (mixed_precision_search_manager.py:54-100). The sensitivities
are those of the layers of the graph that is searched. -/
def Net.mpSearch [LinearOrder K] (net : Net) (solve : LP K → Option ((ℕ → ℕ → ℤ) × (ℕ → K)))
    (target : RU K) (sens : ℕ → ℕ → K) : Except SearchError (ℕ → ℕ) :=
  if net.usesVirtual target then net.vsearch solve target sens
  else
    match net.minCfg with
    | none => .error .other
    | some m => (net.space (K := K)).search solve m target sens

end MCT.MP

namespace MCT.MPSpec

open MCT.MP

/-- The virtual node selects the activation bits of original node `j`. -/
def HoldsAct (v : VNode) (j : ℕ) : Prop := v = .reg j ∨ v = .act j ∨ ∃ i, v = .pair j i

/-- The virtual node selects the kernel bits of original node `i`. -/
def HoldsWts (v : VNode) (i : ℕ) : Prop := v = .wts i ∨ ∃ a, v = .pair a i

/-- `vc` is the candidate selected for virtual layer `v`. -/
def Selected (net : Net) (vcfg : ℕ → ℕ) (v : VNode) (vc : Cand) : Prop :=
  ∃ (l : ℕ) (vn : Node), net.vnodes[l]? = some v ∧ net.vnode v = some vn ∧ vn.conf = true ∧
    vn.cands[vcfg l]? = some vc

/-- A candidate for every configurable virtual layer. -/
def VValid (net : Net) (vcfg : ℕ → ℕ) : Prop :=
  ∀ (l : ℕ) (v : VNode) (vn : Node), net.vnodes[l]? = some v → net.vnode v = some vn →
    vn.conf = true → vcfg l < vn.cands.length

/-- Networks the virtual graph is made for: every node has candidates; only kernels of layers that are
not reused have varying weight bits; no two candidates of a node agree in everything that varies. -/
structure BopsNet (net : Net) : Prop where
  cands : ∀ (i : ℕ) (n : Node), net.nodes[i]? = some n → n.cands ≠ []
  kernel : ∀ (i : ℕ) (n : Node) (k : ℕ), net.nodes[i]? = some n → n.confWeight k = true →
    n.kernel = some k ∧ n.reuse = false
  distinct : ∀ (i : ℕ) (n : Node), net.nodes[i]? = some n → ∀ (x y : ℕ) (c d : Cand),
    n.cands[x]? = some c → n.cands[y]? = some d → (n.confAct = true → c.aBits = d.aBits) →
    (∀ k, n.confWeight k = true → c.w k = d.w k) → x = y

/-- Every layer with varying kernel bits whose input activation has varying bits reads it directly
(not through a layer that keeps its input's quantization), and is its only reader. -/
def BopsPaired (net : Net) : Prop :=
  ∀ (i : ℕ) (n : Node) (k a : ℕ), net.nodes[i]? = some n → n.kernel = some k → n.prev = [a] → n.macs ≠ 0 →
    ∀ (j : ℕ) (s : Node), net.preserved (net.nodes.length + 1) a = some j → net.nodes[j]? = some s →
      s.confAct = true → n.confWeight k = true →
      j = a ∧ ∀ (i' : ℕ) (n' : Node), net.nodes[i']? = some n' → a ∈ n'.prev → i' = i

end MCT.MPSpec
