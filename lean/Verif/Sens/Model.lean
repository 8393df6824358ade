import Verif.MP.Virtual

/-!
# Sensitivity evaluation of mixed precision: configuring the model, measuring, restoring

Models `core/common/mixed_precision/sensitivity_eval/sensitivity_evaluation.py`,
`set_layer_to_bitwidth.py`, the layer lookup of the mixed-precision model builders of both frameworks
and the measuring loop of `mixed_precision_search_manager.py`.

A quantizer layer of the evaluation model is named by the node whose output (`act`) or kernel (`wts`)
it quantizes.  The state of the model is, per layer, the active candidate index or `none` (the
quantizer is disabled).  A step that raises returns the state it leaves behind (`Except.error`).
-/

namespace MCT.Sens

open MCT.MP

/-- The two classes of quantization layers (`activation_quant_layer_cls`, `weights_quant_layer_cls`,
sensitivity_evaluation.py:107-111). -/
inductive Kind
  | act | wts
  deriving DecidableEq, Repr

/-- A quantizer layer. -/
abbrev Layer := ℕ × Kind

/-- `active_quantization_config_index` of every quantizer layer
(configurable_activation_quantizer.py:71-84, configurable_weights_quantizer.py:92-103). -/
abbrev State := Layer → Option ℕ

/-- All quantizers disabled. -/
def off : State := fun _ => none

/-- A Python dict from node names to optional candidate indices, in insertion order. -/
abbrev Cfg := List (ℕ × Option ℕ)

/-- The keys of a dict. -/
def Cfg.keys (a : Cfg) : List ℕ := a.map Prod.fst

/-- `d.pop(n)` (sensitivity_evaluation.py:148, 151). -/
def Cfg.pop (a : Cfg) (n : ℕ) : Cfg := a.filter fun p => decide (p.1 ≠ n)

/-- The evaluation model: number of candidates a layer's quantizer holds, and `conf_node2layers.get`
(sensitivity_evaluation.py:66-67, 139). -/
structure EvalModel where
  ncand : Layer → ℕ
  ofNode : ℕ → Option (List Layer)

/-- `set_activation_quant_layer_to_bitwidth`, `set_weights_quant_layer_to_bitwidth`
(set_layer_to_bitwidth.py:22-58): `none` is the assertion on the index.  Simplification: the
configurable quantizers of one layer, which are always set together, are one quantizer. -/
def setLayer (m : EvalModel) (st : State) (l : Layer) (v : Option ℕ) : Option State :=
  match v with
  | none => some fun l' => if l' = l then none else st l'
  | some c => if c < m.ncand l then some fun l' => if l' = l then some c else st l' else none

/-- The inner loop of `apply_bitwidth_config` over the layers of node `n`
(sensitivity_evaluation.py:142-151). -/
def applyLayers (m : EvalModel) (n : ℕ) : List Layer → Cfg → Cfg → State →
    Except State (Cfg × Cfg × State)
  | [], a, w, st => .ok (a, w, st)
  | l :: ls, a, w, st =>
    match l.2 with
    | .act =>
      match a.lookup n with
      | some v =>
        match setLayer m st l v with
        | some st' => applyLayers m n ls (a.pop n) w st'
        | none => .error st
      | none => applyLayers m n ls a w st
    | .wts =>
      match w.lookup n with
      | some v =>
        match setLayer m st l v with
        | some st' => applyLayers m n ls a (w.pop n) st'
        | none => .error st
      | none => applyLayers m n ls a w st

/-- The outer loop of `apply_bitwidth_config` over the node names
(sensitivity_evaluation.py:138-151). -/
def applyNodes (m : EvalModel) : List ℕ → Cfg → Cfg → State → Except State (Cfg × Cfg × State)
  | [], a, w, st => .ok (a, w, st)
  | n :: ns, a, w, st =>
    match m.ofNode n with
    | none => .error st
    | some ls =>
      match applyLayers m n ls a w st with
      | .error st' => .error st'
      | .ok (a', w', st') => applyNodes m ns a' w' st'

/-- `apply_bitwidth_config` (sensitivity_evaluation.py:136-154); `order` is the iteration order of the
set of node names. -/
def applyCfg (m : EvalModel) (order : List ℕ) (a w : Cfg) (st : State) : Except State State :=
  match applyNodes m order a w st with
  | .error st' => .error st'
  | .ok (a', w', st') => if a'.isEmpty && w'.isEmpty then .ok st' else .error st'

/-- The check at the beginning of `_configured_mp_model` (sensitivity_evaluation.py:131-133). -/
def requestsSomething (a w : Cfg) : Bool := a.any (fun p => p.2.isSome) || w.any fun p => p.2.isSome

/-- `{n: None for n in cfg}` (sensitivity_evaluation.py:160). -/
def Cfg.clear (a : Cfg) : Cfg := a.map fun p => (p.1, none)

/-- An iteration order of `set(a_cfg.keys()).union(set(w_cfg.keys()))`
(sensitivity_evaluation.py:137). -/
structure IsOrder (a w : Cfg) (order : List ℕ) : Prop where
  nodup : order.Nodup
  mem : ∀ n, n ∈ order ↔ n ∈ a.keys ∨ n ∈ w.keys

/-- `compute_metric` with the context manager `_configured_mp_model`
(sensitivity_evaluation.py:69-84, 120-160): the value, `none` if something raised, and the state left
behind.  `metric` is `metric_calculator.compute` on the configured model (`none` if it raises); the
configuration is applied before the `try`. -/
def evaluate {K : Type} (m : EvalModel) (metric : State → Option K) (order order' : List ℕ)
    (a w : Cfg) (st : State) : Option K × State :=
  if requestsSomething a w then
    match applyCfg m order a w st with
    | .error st' => (none, st')
    | .ok st1 =>
      match applyCfg m order' a.clear w.clear st1 with
      | .error st2 => (none, st2)
      | .ok st2 => (metric st1, st2)
  else (none, st)

/-- One call of `compute_metric`: the configurations and the two iteration orders. -/
structure Call where
  a : Cfg
  w : Cfg
  order : List ℕ
  order' : List ℕ

/-- A sequence of calls of `compute_metric` on one evaluator; a call that raises does not end the
sequence (the caller may catch the exception). -/
def evaluateAll {K : Type} (m : EvalModel) (metric : State → Option K) :
    List Call → State → List (Option K) × State
  | [], st => ([], st)
  | c :: cs, st =>
    let r := evaluate m metric c.order c.order' c.a c.w st
    let rs := evaluateAll m metric cs r.2
    (r.1 :: rs.1, rs.2)

/-! ### The evaluation model of a network -/

/-- Does the evaluation graph quantize the activation of the node: `_build_mp_model` disables it
unless it is configurable (sensitivity_evaluation.py:96-101). -/
def evalAct (disable : Bool) (n : Node) : Bool := !disable && n.confAct

/-- Does the evaluation graph quantize the kernel: the quantization of the weights is disabled unless
some weight is configurable (sensitivity_evaluation.py:102-104). -/
def kernelOn (n : Node) : Bool :=
  match n.kernel with
  | some k => (match n.attrs[k]? with | some p => p.2 | none => false) && n.anyConfWeight
  | none => false

/-- Is the kernel configurable (`is_configurable_weight(n.kernel_attr)`). -/
def kernelConf (n : Node) : Bool := match n.kernel with | some k => n.confWeight k | none => false

/-- Member of `get_configurable_sorted_nodes` of the evaluation graph. -/
def evalConf (disable : Bool) (n : Node) : Bool := evalAct disable n || n.confKernel

/-- Number of candidates of a node. -/
def ncands (net : Net) (l : Layer) : ℕ :=
  match net.nodes[l.1]? with | some n => n.cands.length | none => 0

/-- Building a weights wrapper raises if the kernel is quantized but not configurable
(pytorch mixed_precision_model_builder.py:76-77, keras mixed_precision_model_builder.py:85-86); reused
nodes use the wrapper of the first use (pytorch_model_builder.py:311-327). -/
def wrapperError (net : Net) : Bool := net.nodes.any fun n => !n.reuse && kernelOn n && !kernelConf n

/-- `MixedPrecisionPyTorchModelBuilder.build_model` (pytorch mixed_precision_model_builder.py:167-237,
pytorch_model_builder.py:291-352): layers are found by the node's name among `named_children()`, which
lists a module once, under its first name; so a reused node has no wrapper of its own. -/
def torchModel (net : Net) (disable : Bool) : Option EvalModel :=
  if wrapperError net then none
  else some
    { ncand := ncands net
      ofNode := fun i =>
        match net.nodes[i]? with
        | none => none
        | some n =>
          if evalConf disable n then
            some ((if kernelOn n && !n.reuse then [(i, Kind.wts)] else []) ++
              if evalAct disable n then [(i, Kind.act)] else [])
          else none }

/-- `MixedPrecisionKerasModelBuilder.build_model` (keras mixed_precision_model_builder.py:167-237):
wrappers are found by the name of the wrapped layer, activation holders by the name of the layer they
follow, which for a reused node is the layer of its first use, `base`. -/
def kerasModel (net : Net) (base : ℕ → ℕ) (disable : Bool) : Option EvalModel :=
  if wrapperError net then none
  else some
    { ncand := ncands net
      ofNode := fun i =>
        match net.nodes[i]? with
        | none => none
        | some n =>
          if evalConf disable n then
            some ((if kernelOn n && !n.reuse then [(i, Kind.wts)] else []) ++
              if evalAct disable n then
                ((List.range net.nodes.length).filter fun j =>
                  decide (base j = i) &&
                    match net.nodes[j]? with | some nj => evalAct disable nj | none => false).map
                  fun j => (j, Kind.act)
              else [])
          else none }

/-! ### The measuring loop -/

/-- The configurations requested for candidate `c` of node `i` without a virtual graph
(mixed_precision_search_manager.py:191-197): names are looked up in the original graph. -/
def request (n : Node) (i c : ℕ) : Cfg × Cfg :=
  (if n.confAct then [(i, some c)] else [], if n.anyConfWeight then [(i, some c)] else [])

/-- The calls of one node (mixed_precision_search_manager.py:189-201). -/
def nodeCalls (net : Net) (i : ℕ) : List Call :=
  match net.nodes[i]? with
  | none => []
  | some n => (List.range n.cands.length).map fun c =>
      ⟨(request n i c).1, (request n i c).2, [i], [i]⟩

/-- All the calls of `_build_sensitivity_mapping` (mixed_precision_search_manager.py:186-201). -/
def searchCalls (net : Net) : List Call := net.confNodes.flatMap (nodeCalls net)

/-- The raw sensitivities: the loop ends at the first exception. -/
def measure {K : Type} (m : EvalModel) (metric : State → Option K) :
    List Call → State → Option (List K) × State
  | [], st => (some [], st)
  | c :: cs, st =>
    let r := evaluate m metric c.order c.order' c.a c.w st
    match r.1 with
    | none => (none, r.2)
    | some v =>
      let rs := measure m metric cs r.2
      (rs.1.map (v :: ·), rs.2)

/-- The sensitivities of a network in PyTorch (mixed_precision_search_facade.py:71-95): the model is
built with all quantizers disabled (sensitivity_evaluation.py:106-112), then measured. -/
def torchSensitivities {K : Type} (net : Net) (disable : Bool) (metric : State → Option K) :
    Option (List K) :=
  (torchModel net disable).bind fun m => (measure m metric (searchCalls net) off).1

/-- The same in Keras. -/
def kerasSensitivities {K : Type} (net : Net) (base : ℕ → ℕ) (disable : Bool)
    (metric : State → Option K) : Option (List K) :=
  (kerasModel net base disable).bind fun m => (measure m metric (searchCalls net) off).1

/-! ### Filtering the candidates before the search -/

/-- A node with its base configuration. -/
abbrev BNode := Node × Cand

/-- Weights-only search: keep the candidates with the base activation bits
(mixed_precision_candidates_filter.py:41-51). -/
def filterAct (p : BNode) : Node :=
  if p.1.confAct then
    { p.1 with cands := p.1.cands.filter fun c => decide (p.1.mode = .quant) && decide (c.aBits = p.2.aBits) }
  else p.1

/-- Activation-only search: keep the candidates with the base kernel bits; reused nodes are not
visited (mixed_precision_candidates_filter.py:53-64, base_graph.py:554-572). -/
def filterWts (p : BNode) : Node :=
  if p.1.confKernel then
    match p.1.kernel with
    | some k => { p.1 with cands := p.1.cands.filter fun c =>
        (match p.1.attrs[k]? with | some q => q.2 | none => false) && decide (c.w k = p.2.w k) }
    | none => p.1
  else p.1

/-- `filter_candidates_for_mixed_precision` (mixed_precision_candidates_filter.py:19-64); the flags say
which targets are restricted. -/
def filterCands (wR aR tR bR : Bool) (nodes : List BNode) : List Node :=
  if tR || bR then nodes.map Prod.fst
  else if wR && !aR then nodes.map filterAct
  else if aR && !wR then nodes.map filterWts
  else nodes.map Prod.fst

/-- `disable_activation_for_metric` (mixed_precision_search_facade.py:71-76). -/
def disableAct (wR aR tR bR : Bool) (net : Net) : Bool :=
  (wR && !(aR || tR || bR)) || !(net.nodes.any Node.confAct)

end MCT.Sens
