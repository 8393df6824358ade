/-
Model of building a quantized model from a graph.

Sources (under /repo/model_compression_toolkit):
  core/pytorch/back2framework/pytorch_model_builder.py, float_model_builder.py, quantized_model_builder.py;
  core/keras/back2framework/keras_model_builder.py, instance_builder.py;
  exporter/model_wrapper/pytorch/builder/fully_quantized_model_builder.py and the same file of Keras;
  exporter/model_wrapper/fw_agnostic/get_inferable_quantizers.py.

Nodes are numbered by their place in the topological order; tensors are values of an arbitrary type, layers and
quantizers are arbitrary functions.
-/
import Mathlib.Data.List.Basic

namespace MCT.Build

/-- A name, as its parts between underscores. -/
abbrev Name := List String

/-- What a layer returns: a tensor (or another object, such as a tuple), or a list of tensors. -/
inductive Out (V : Type)
  | one (v : V)
  | list (l : List V)
  deriving DecidableEq

/-- The tensors of a result: `[out]` unless it is a list. -/
def Out.tensors {V : Type} : Out V → List V
  | .one v => [v]
  | .list l => l

/-- A node of the graph: `ins` are its incoming edges sorted by sink index, each with the source node and the
source index; `layer` the layer it stands for, with its weights; `weights` the final quantization of the weights;
`act` the final quantization of the activations if it is enabled; `outs` the number of shapes in
`output_shape` (1 if it is no list); `preserving` whether it preserves the quantization of its input. -/
structure Node (L W A : Type) where
  name : Name
  ins : List (ℕ × ℕ)
  layer : L
  weights : W
  group : Option String
  reuse : Bool
  act : Option A
  outs : ℕ
  preserving : Bool

/-- A graph with its nodes in topological order, `get_inputs()` and `get_outputs()` (node and output index), and
`fqc.insert_preserving_quantizers`. -/
structure Graph (L W A : Type) where
  nodes : List (Node L W A)
  inputs : List ℕ
  outputs : List (ℕ × ℕ)
  insertPreserving : Bool

/-- What layers with quantized weights and quantizers of activations compute, and `torch.cat(·, dim=0)`. -/
structure Sem (V L W A : Type) where
  run : L → W → List V → Option (Out V)
  quant : A → V → V
  cat : List V → V

/-- `none` as quantization of weights leaves them as they are: the layer runs without wrapper. -/
abbrev WOpt (W : Type) := Option W

variable {V L W A : Type}

/-- Lookup in a dictionary. -/
def look {κ α : Type} [DecidableEq κ] (d : List (κ × α)) (k : κ) : Option α :=
  (d.find? fun e => decide (e.1 = k)).map Prod.snd

/-- `d.update({k: v})`: the last value wins (here it is put in front). -/
def put {κ α : Type} (d : List (κ × α)) (k : κ) (v : α) : List (κ × α) := (k, v) :: d

/-! ### PyTorch -/

/-- Which model is built: the float model and the quantized model of the first builders (no wrapper, no holders),
or the exported model (weights wrapped, activations quantized by holders). -/
inductive Mode
  | float
  | quantized
  | exported
  deriving DecidableEq

/-- The model under construction: operations by node name, groups of reused layers, holders by node name. The
modules of holders have names of their own and are kept in the dictionary of holders. -/
structure Built (L W A : Type) where
  ops : List (Name × (L × WOpt W))
  groups : List (String × (L × WOpt W))
  holders : List (Name × A)

/-- `wrap`: the layer with its weights quantized in the exported model. (`pytorch_model_builder.py` 264-284,
`fully_quantized_model_builder.py` 32-65) -/
def wrap (m : Mode) (n : Node L W A) : L × WOpt W :=
  match m with
  | .exported => (n.layer, some n.weights)
  | _ => (n.layer, none)

/-- `get_activation_quantizer_holder`: one quantizer per output shape, and exactly one is allowed.
(`fully_quantized_model_builder.py` 68-95, `get_inferable_quantizers.py` 40-49) -/
def holderOf (n : Node L W A) : Option A :=
  match n.act with
  | none => none
  | some a => if n.outs = 1 then some a else none

/-- `retrieve_preserved_quantization_node`: back to a node that does not preserve; every preserving node must
have one predecessor. (`core/common/graph/base_graph.py` 701-716)  Predecessors come before a node, so `fuel` of the
number of nodes is enough. -/
def preservedFrom (nodes : List (Node L W A)) : ℕ → ℕ → Option (Node L W A)
  | 0, _ => none
  | fuel + 1, i =>
    match nodes[i]? with
    | none => none
    | some n =>
      if n.preserving then
        match (n.ins.map Prod.fst).dedup with
        | [p] => preservedFrom nodes fuel p
        | _ => none
      else some n

/-- The holder of a node. (`pytorch_model_builder.py` 336-354)  A preserving holder is built, with the quantizer
of the preserved node, and kept under the name of the node, where `forward` looks only for nodes with enabled
quantization. -/
def addHolder (m : Mode) (g : Graph L W A) (i : ℕ) (n : Node L W A) (b : Built L W A) : Option (Built L W A) :=
  match m with
  | .exported =>
    match n.act with
    | some _ => (holderOf n).map fun a => { b with holders := put b.holders n.name a }
    | none =>
      if n.preserving then
        (preservedFrom g.nodes (g.nodes.length + 1) i).bind fun p =>
          match p.act with
          | none => some b
          | some _ =>
            if g.insertPreserving then
              (holderOf p).map fun a => { b with holders := put b.holders n.name a }
            else some b
      else some b
  | _ => some b

/-- `reuse_group_to_module[n.reuse_group] = op` of a node with a group. (327-328) -/
def setGroup (s : Option String) (op : L × WOpt W) (d : List (String × (L × WOpt W))) :
    List (String × (L × WOpt W)) :=
  match s with
  | none => d
  | some s => put d s op

/-- First pass of `_add_modules`: nodes that are not reused. (309-334) -/
def addFirst (m : Mode) (g : Graph L W A) : List (ℕ × Node L W A) → Built L W A → Option (Built L W A)
  | [], b => some b
  | (i, n) :: l, b =>
    if n.reuse then addFirst m g l b
    else
      let op := wrap m n
      let b1 := { b with
        ops := put b.ops n.name op
        groups := setGroup n.group op b.groups }
      (addHolder m g i n b1).bind (addFirst m g l)

/-- Second pass: reused nodes take the operation of their group. (316-320) -/
def addReused (m : Mode) (g : Graph L W A) : List (ℕ × Node L W A) → Built L W A → Option (Built L W A)
  | [], b => some b
  | (i, n) :: l, b =>
    if n.reuse then
      match n.group with
      | none => none
      | some s => (look b.groups s).bind fun op =>
          (addHolder m g i n { b with ops := put b.ops n.name op }).bind (addReused m g l)
    else addReused m g l b

/-- The nodes with their numbers. -/
def numbered (g : Graph L W A) : List (ℕ × Node L W A) := g.nodes.zipIdx.map fun e => (e.2, e.1)

/-- `_add_all_modules`. (286-295) -/
def build (m : Mode) (g : Graph L W A) : Option (Built L W A) :=
  (addFirst m g (numbered g) ⟨[], [], []⟩).bind (addReused m g (numbered g))

/-- Run of a wrapped or plain layer; a plain layer has its float weights: `float` names that configuration. -/
def runOp (sem : Sem V L W A) (float : W) (op : L × WOpt W) (ins : List V) : Option (Out V) :=
  sem.run op.1 (op.2.getD float) ins

/-- `_build_input_tensors_list`: all tensors of the sources, whatever the source index. (39-66) -/
def inputTensors (g : Graph L W A) (xs : List V) (env : List (List V)) (i : ℕ) (n : Node L W A) :
    Option (List V) :=
  if i ∈ g.inputs then (xs[g.inputs.idxOf i]?).map fun x => [x]
  else (n.ins.mapM fun e => env[e.1]?).map List.flatten

/-- The quantization of a result, in `_get_activation_quantization_fn` and `_run_operation`. (104-165, 411-431)
First the tensors that are passed on, then those kept as float outputs. -/
def quantizeOut (sem : Sem V L W A) (m : Mode) (b : Built L W A) (n : Node L W A) (o : Out V) :
    List V × List V :=
  match n.act with
  | none => (o.tensors, o.tensors)
  | some a =>
    let v := match o with
      | .one v => v
      | .list l => sem.cat l
    match look b.holders n.name with
    | some a' => ([sem.quant a' v], [v])
    | none => match m with
      | .exported => (o.tensors, o.tensors)
      | .quantized => ([sem.quant a v], [v])
      | .float => ([v], [v])

/-- `forward` over the nodes from number `i` on: the tensors of all nodes and their float tensors. (356-383) -/
def forwardFrom (sem : Sem V L W A) (float : W) (m : Mode) (g : Graph L W A) (b : Built L W A) (xs : List V) :
    ℕ → List (Node L W A) → List (List V) → List (List V) → Option (List (List V) × List (List V))
  | _, [], env, fl => some (env, fl)
  | i, n :: l, env, fl =>
    (look b.ops n.name).bind fun op =>
      (inputTensors g xs env i n).bind fun ins =>
        (runOp sem float op ins).bind fun o =>
          let q := quantizeOut sem m b n o
          forwardFrom sem float m g b xs (i + 1) l (env ++ [q.1]) (fl ++ [q.2])

/-- `_find_by_node_name` and one round of `_generate_outputs`: the tensors of the first node with the name. A
single tensor is returned as it is, more as a list. (168-205) -/
def outputOf (g : Graph L W A) (vals : List (List V)) (i : ℕ) : Option (List (Out V)) :=
  (g.nodes[i]?).bind fun n =>
    (vals[(g.nodes.findIdx fun k => decide (k.name = n.name))]?).map fun ts =>
      if 1 < ts.length then [Out.list ts] else ts.map Out.one

/-- `forward` of the model built in a mode; `returnFloat` is `return_float_outputs`. The outputs are those of the
output nodes; the output index is not read. (385-395) -/
def forward (sem : Sem V L W A) (float : W) (m : Mode) (returnFloat : Bool) (g : Graph L W A) (xs : List V) :
    Option (List (Out V)) :=
  (build m g).bind fun b =>
    (forwardFrom sem float m g b xs 0 g.nodes [] []).bind fun r =>
      (g.outputs.mapM fun o => outputOf g (if returnFloat then r.2 else r.1) o.1).map List.flatten

/-! ### Keras -/

/-- `instance_builder`: a layer for every node that is not reused, in topological order.
(`instance_builder.py` 97-122) -/
def kerasOps (g : Graph L W A) : List (Name × (L × W)) :=
  (g.nodes.filter fun n => !n.reuse).map fun n => (n.name, (n.layer, n.weights))

/-- `get_node_op_function`: for a reused node, the first layer whose node has the name without its last two
parts. (`instance_builder.py` 48-68) -/
def kerasOp (g : Graph L W A) (n : Node L W A) : Option (L × W) :=
  if n.reuse then look (kerasOps g) n.name.dropLast.dropLast else some (n.layer, n.weights)

/-- `_build_input_tensors_list` of Keras: the tensor of the source at the source index.
(`keras_model_builder.py` 187-213) -/
def kerasInputs (env : List (List V)) (n : Node L W A) : Option (List V) :=
  n.ins.mapM fun e => (env[e.1]?).bind fun l => l[e.2]?

/-- `_run_operation_activation_quantization` with holders: exactly one quantizer; a holder on a list of tensors
is not modelled (`none`). (`keras_model_builder.py` 301-330) -/
def kerasQuantize (sem : Sem V L W A) (n : Node L W A) (o : Out V) : Option (Out V) :=
  match n.act with
  | none => some o
  | some _ => (holderOf n).bind fun a =>
    match o with
    | .one v => some (.one (sem.quant a v))
    | .list _ => none

/-- The layers applied one after another. A node without inputs must be an input of the graph, and an input of
the graph is a node without inputs. (`keras_model_builder.py` 138-157, 237-241) -/
def kerasFrom (sem : Sem V L W A) (g : Graph L W A) (xs : List V) :
    ℕ → List (Node L W A) → List (List V) → Option (List (List V))
  | _, [], env => some env
  | i, n :: l, env =>
    if n.ins = [] then
      (if i ∈ g.inputs then xs[g.inputs.idxOf i]? else none).bind fun x =>
        (kerasQuantize sem n (.one x)).bind fun q => kerasFrom sem g xs (i + 1) l (env ++ [q.tensors])
    else
      (kerasOp g n).bind fun op =>
        (kerasInputs env n).bind fun ins =>
          (sem.run op.1 op.2 ins).bind fun o =>
            (kerasQuantize sem n o).bind fun q => kerasFrom sem g xs (i + 1) l (env ++ [q.tensors])

/-- `build_model` of the exported Keras model, and a run of it: the outputs are read by the name of their node
(the last node of that name) and their output index. (`keras_model_builder.py` 159-185) -/
def kerasForward (sem : Sem V L W A) (g : Graph L W A) (xs : List V) : Option (List V) :=
  (kerasFrom sem g xs 0 g.nodes []).bind fun env =>
    g.outputs.mapM fun o => (g.nodes[o.1]?).bind fun n =>
      (look (((g.nodes.map fun k => k.name).zip env).reverse) n.name).bind fun ts => ts[o.2]?

end MCT.Build
