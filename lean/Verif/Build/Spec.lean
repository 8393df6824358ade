/-
Specification of a quantized model: the graph, with every layer run with its own weights and its output quantized
by its own quantizer.
-/
import Verif.Build.Model

namespace MCT.Build

variable {V L W A : Type}

/-- The weights a layer runs with in a mode: quantized as configured in the exported model, else float. -/
def weightsIn (float : W) (m : Mode) (n : Node L W A) : W :=
  match m with
  | .exported => n.weights
  | _ => float

/-- The quantization of an output: that of the node if it is enabled and the model is not the float model. -/
def quantIn (sem : Sem V L W A) (m : Mode) (n : Node L W A) (v : V) : V :=
  match m, n.act with
  | .float, _ => v
  | _, none => v
  | _, some a => sem.quant a v

/-- The inputs of node `i`: the input of the model with its index, or the quantized outputs of its sources in the
order of the edges. -/
def InputsOf (g : Graph L W A) (xs : List V) (val : ℕ → V) (i : ℕ) (n : Node L W A) (ins : List V) : Prop :=
  (∃ (k : ℕ) (x : V), g.inputs[k]? = some i ∧ xs[k]? = some x ∧ ins = [x]) ∨
    (i ∉ g.inputs ∧ ins = n.ins.map fun e => val e.1)

/-- `fl i` and `val i` are the output of node `i` before and after quantization, for a model whose layers return
one tensor. -/
def Computes (sem : Sem V L W A) (float : W) (m : Mode) (g : Graph L W A) (xs : List V) (fl val : ℕ → V) : Prop :=
  ∀ (i : ℕ) (n : Node L W A), g.nodes[i]? = some n → ∃ ins, InputsOf g xs val i n ins ∧
    sem.run n.layer (weightsIn float m n) ins = some (.one (fl i)) ∧ val i = quantIn sem m n (fl i)

/-- Graphs that can be built: names differ, nodes come after their sources, quantized nodes have one output
shape, preserving nodes have one source. -/
structure Ordered (g : Graph L W A) : Prop where
  names : (g.nodes.map fun n => n.name).Nodup
  order : ∀ (i : ℕ) (n : Node L W A), g.nodes[i]? = some n → ∀ e ∈ n.ins, e.1 < i
  inputs : g.inputs.Nodup
  shapes : ∀ n ∈ g.nodes, n.act ≠ none → n.outs = 1
  preserving : ∀ n ∈ g.nodes, n.preserving = true → ∃ p, (n.ins.map Prod.fst).dedup = [p]
  outputs : ∀ o ∈ g.outputs, o.1 < g.nodes.length

/-- Every reused node has a group, some node of the group is not reused, and all nodes of the group that are not
reused stand for the same layer, with the same quantization of its weights. -/
def GroupsAgree (g : Graph L W A) : Prop :=
  ∀ n ∈ g.nodes, n.reuse = true → ∃ s, n.group = some s ∧
    (∃ k ∈ g.nodes, k.reuse = false ∧ k.group = some s) ∧
    ∀ k ∈ g.nodes, k.reuse = false → k.group = some s → k.layer = n.layer ∧ k.weights = n.weights

/-- `vals i` are the tensors of node `i` in a model whose layers may return several. -/
def ComputesAll (sem : Sem V L W A) (g : Graph L W A) (xs : List V) (vals : ℕ → List V) : Prop :=
  ∀ (i : ℕ) (n : Node L W A), g.nodes[i]? = some n →
    (∃ (k : ℕ) (x : V), n.ins = [] ∧ g.inputs[k]? = some i ∧ xs[k]? = some x ∧
      vals i = [quantIn sem .exported n x]) ∨
    (n.ins ≠ [] ∧ ∃ ins o, List.Forall₂ (fun (e : ℕ × ℕ) v => (vals e.1)[e.2]? = some v) n.ins ins ∧
      sem.run n.layer n.weights ins = some o ∧
      ((n.act = none ∧ vals i = o.tensors) ∨
        ∃ a v, n.act = some a ∧ o = .one v ∧ vals i = [sem.quant a v]))

/-- The names of reused nodes in Keras: that of a node that is not reused, with two more parts, and that node
stands for the same layer with the same quantization of its weights. -/
def NamesAgree (g : Graph L W A) : Prop :=
  ∀ n ∈ g.nodes, n.reuse = true → ∃ k ∈ g.nodes, k.reuse = false ∧ (∃ p q, n.name = k.name ++ [p, q]) ∧
    k.layer = n.layer ∧ k.weights = n.weights

end MCT.Build
