/-
Model of the computation of the quantization parameters of a graph.

Sources (under /repo/model_compression_toolkit/core/common):
  quantization/quantization_params_generation/qparams_computation.py, qparams_weights_computation.py,
    qparams_activations_computation.py
  quantization/node_quantization_config.py 196-206, 297-313, 448-480, 531-549
  graph/base_node.py 182-197, 223-245, 292-322, 349-355, 632-644

A Python exception is the value `none`.  The functions that select parameters are those modelled in
`Verif/Search` and `Verif/PerChan`; here they are arbitrary functions of what they are given.
-/
import Verif.Candidates.Model

namespace MCT.Params
open MCT.Py MCT.Tpc MCT.Cand

set_option linter.unusedVariables false

/-- `QuantizationErrorMethod`, of which only these two are told apart here. -/
inductive Err | mse | hmse | other (i : ℕ)
  deriving DecidableEq, Repr

/-- What a selection function of weight parameters is given, qparams_weights_computation.py 55-65 (without the fields that
are the same for all attributes): `value = none` is the Python value `None`. -/
structure Req (V : Type) where
  value : Option V
  nBits : ℕ
  perChannel : Bool
  axis : Option ℕ
  err : Err
  deriving DecidableEq

/-- `WeightsAttrQuantizationConfig`, node_quantization_config.py 252-282.  `axes` is the
`ChannelAxisMapping` (output, input), `fn` the selection function. -/
structure ACfg (V P : Type) where
  enabled : Bool
  err : Err
  nBits : ℕ
  perChannel : Bool
  axes : Option (Option ℕ × Option ℕ)
  fn : Option (Req V → Option (Dict Name P × Option ℕ))
  params : Dict Name P

/-- `NodeActivationQuantizationConfig`; `fn` is the selection function applied to the statistics of the
node (qparams_activations_computation.py 110-155), `quant` that the mode is `QUANT`. -/
structure ActC (S P : Type) where
  quant : Bool
  fn : S → Option (Dict Name P)
  params : Dict Name P

/-- `CandidateNodeQuantizationConfig`.  The dictionaries of named and positional attributes are one dictionary. -/
structure Cnd (V S P : Type) where
  attrs : Dict Attr (ACfg V P)
  act : ActC S P

/-- What the computation reads of a node; `stats` are the prior information and the statistics of the node. -/
structure Node (V S P : Type) where
  weights : Dict Attr V
  kernel : Option Name
  cands : List (Cnd V S P)
  stats : S

variable {V S P : Type}

/-- `name in k`, for `name` the one searched for and a key `k` of the dictionary, node_quantization_config.py 544. -/
def contains (k : Attr) (s : Name) : Bool :=
  match k with
  | .named t => hasSub t s
  | .pos _ => false

/-- The key of the configuration returned by `get_attr_config`, node_quantization_config.py 448-480. -/
def cfgKey (d : Dict Attr (ACfg V P)) : Attr → Option Attr
  | .pos i => if d.has (.pos i) then some (.pos i) else none
  | .named s =>
    match d.keys.filter fun k => contains k s with
    | [] => none
    | [k] => some k
    | _ => if d.has (.named s) then some (.named s) else none

/-- `get_attr_config`, node_quantization_config.py 448-480. -/
def getCfg (d : Dict Attr (ACfg V P)) (a : Attr) : Option (ACfg V P) := (cfgKey d a).bind d.get

/-- Whether the key is a string. -/
def isNamed : Attr → Bool
  | .named _ => true
  | .pos _ => false

/-- `get_weights_by_keys`, base_node.py 292-322: `None` (the value `some none`) unless a single key
matches; an integer name compared with a string key (`name in k`) is a TypeError. -/
def valueOf (w : Dict Attr V) : Attr → Option (Option V)
  | .pos i => if w.keys.any isNamed then none else some (w.get (.pos i))
  | .named s =>
    match w.keys.filter fun k => contains k s with
    | [k] => some (w.get k)
    | _ => some none

/-- `is_weights_quantization_enabled`, base_node.py 223-245, without a final configuration (there is none at
this stage).  `Logger.error` does not raise. -/
def enabledAll (n : Node V S P) (a : Attr) : Option Bool :=
  (n.cands.mapM fun c => getCfg c.attrs a).map fun l => l.all fun c => c.enabled

/-- `n.kernel_attr is None or n.kernel_attr not in attr`, qparams_computation.py 118; for an integer
attribute `in` is a TypeError. -/
def notKernel (kernel : Option Name) : Attr → Option Bool
  | .named t =>
    match kernel with
    | none => some true
    | some k => some (!hasSub t k)
  | .pos _ =>
    match kernel with
    | none => some true
    | some _ => none

/-- The error method passed on, qparams_computation.py 113-123. -/
def errFor (kernel : Option Name) (a : Attr) (e : Err) : Option Err :=
  if e = .hmse then (notKernel kernel a).map fun b => if b then .mse else .hmse
  else some e

/-- `get_weights_qparams`, qparams_weights_computation.py 28-72: without a function an empty dictionary. -/
def weightsQparams (c : ACfg V P) (r : Req V) : Option (Dict Name P × Option ℕ) :=
  match c.fn with
  | some f => f r
  | none => some ([], r.axis)

/-- `set_weights_quantization_param`, node_quantization_config.py 301-313. -/
def setParams (d : Dict Name P) (ps : Dict Name P) : Dict Name P := ps.foldl (fun d p => d.set p.1 p.2) d

/-- The new configuration of an attribute, qparams_computation.py 104-134. -/
def newCfg (n : Node V S P) (a : Attr) (c : ACfg V P) : Option (ACfg V P) :=
  (errFor n.kernel a c.err).bind fun e =>
  (valueOf n.weights a).bind fun v =>
  (weightsQparams c ⟨v, c.nBits, c.perChannel, c.axes.bind fun m => m.1, e⟩).bind fun r =>
  c.axes.bind fun m =>
  if c.enabled then some { c with axes := some (r.2, m.2), params := setParams c.params r.1 } else none

/-- One attribute of a candidate, qparams_computation.py 101-134. -/
def attrStep (n : Node V S P) (d : Dict Attr (ACfg V P)) (a : Attr) : Option (Dict Attr (ACfg V P)) :=
  (enabledAll n a).bind fun b =>
  if b then
    (cfgKey d a).bind fun k => (d.get k).bind fun c => (newCfg n a c).map fun c' => d.set k c'
  else some d

/-- `is_activation_quantization_enabled`, base_node.py 182-197: the candidates must agree. -/
def actEnabled (n : Node V S P) : Option Bool :=
  match n.cands with
  | [] => none
  | c :: cs => if cs.all fun c' => c'.act.quant == c.act.quant then some c.act.quant else none

/-- The activation part, qparams_computation.py 136-143; `set_activation_quantization_param` asserts the
mode. -/
def actStep (n : Node V S P) (a : ActC S P) : Option (ActC S P) :=
  (actEnabled n).bind fun b =>
  if b then
    (a.fn n.stats).bind fun ps => if a.quant then some { a with params := setParams a.params ps } else none
  else some a

/-- One candidate, qparams_computation.py 100-143.  The flags of the candidates are not changed by the loop,
so they are read from the node as it was. -/
def runCand (n : Node V S P) (c : Cnd V S P) : Option (Cnd V S P) :=
  (n.weights.keys.foldlM (attrStep n) c.attrs).bind fun d =>
  (actStep n c.act).map fun a => ⟨d, a⟩

/-- One node, qparams_computation.py 99-143. -/
def runNode (n : Node V S P) : Option (Node V S P) :=
  (n.cands.mapM (runCand n)).map fun cs => { n with cands := cs }

/-- One node of the graph, by its position. -/
def runAt (g : List (Node V S P)) (i : ℕ) : Option (List (Node V S P)) :=
  match g[i]? with
  | none => some g
  | some n => (runNode n).map fun n' => g.set i n'

/-- `calculate_quantization_params`, qparams_computation.py 56-143: `nodes or graph.nodes()`. -/
def calculate (g : List (Node V S P)) (nodes : List ℕ) : Option (List (Node V S P)) :=
  (if nodes = [] then List.range g.length else nodes).foldlM runAt g

end MCT.Params
