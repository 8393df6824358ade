/- What Keras models and graphs compute. -/
import Verif.KReader.Model
import Mathlib.Data.List.Sort
import Mathlib.Data.List.Perm.Basic

namespace MCT.KReader

open MCT.Graph (Edge)

variable {O V : Type}

/-! ### What a model computes

`interp` gives the outputs of an operation for its inputs. -/

mutual
/-- The model can be evaluated with these inputs and outputs: there are values of all tensors that agree with every
node. -/
def KModel.Runs (interp : O → List V → List V) : KModel O → List V → List V → Prop
  | .mk nodes ins outs, xs, ys => ∃ σ : ℕ → V, ins.map σ = xs ∧ outs.map σ = ys ∧ nodesRun interp nodes σ
/-- All nodes agree with the values. -/
def nodesRun (interp : O → List V → List V) : List (KNode O) → (ℕ → V) → Prop
  | [], _ => True
  | .mk _ op ins outs :: l, σ => opRel interp op (ins.map σ) (outs.map σ) ∧ nodesRun interp l σ
/-- Inputs and outputs of a layer. -/
def opRel (interp : O → List V → List V) : KOp O → List V → List V → Prop
  | .input, _, _ => True
  | .prim o, xs, ys => ys = interp o xs
  | .model m, xs, ys => m.Runs interp xs ys
end

/-! ### What a graph computes -/

/-- The in-edges of a node by their index, as the model builder reads them (keras_model_builder.py 204-211). -/
def inEdges (g : KGraph O) (n : Path) : List (Edge Path) :=
  (g.edges.filter fun e => decide (e.dst = n)).insertionSort fun a b => a.di ≤ b.di

/-- The arguments of a node; `τ` gives the outputs of all nodes. -/
def args (τ : Path → ℕ → V) (g : KGraph O) (n : Path) : List V := (inEdges g n).map fun e => τ e.src e.si

/-- A node that is not an input of the graph has to have an operation. -/
def nodeRel (interp : O → List V → List V) : KOp O → List V → List V → Prop
  | .input, _, _ => False
  | .prim o, xs, ys => opRel interp (.prim o) xs ys
  | .model m, xs, ys => opRel interp (.model m) xs ys

/-- The graph can be evaluated with these inputs and outputs. -/
def KGraph.Runs (interp : O → List V → List V) (g : KGraph O) (xs ys : List V) : Prop :=
  ∃ τ : Path → ℕ → V, g.inputs.map (fun i => τ i 0) = xs ∧ g.outputs.map (fun o => τ o.1 o.2) = ys ∧
    ∀ n ∈ g.nodes, n.path ∉ g.inputs →
      nodeRel interp n.op (args τ g n.path) ((List.range n.k).map (τ n.path))

/-! ### Which models -/

/-- What Keras guarantees for the nodes, inputs and outputs of a functional model. -/
structure Level (nodes : List (KNode O)) (ins outs : List ℕ) : Prop where
  /-- A tensor is the output of one node. -/
  once : (nodes.flatMap KNode.outs).Nodup
  /-- A tensor that is read is computed. -/
  produced : ∀ n ∈ nodes, ∀ t ∈ n.ins, ∃ n' ∈ nodes, t ∈ n'.outs
  /-- An input layer has its tensor as input and output. -/
  input : ∀ n ∈ nodes, n.op.isInput = true → ∃ t ∈ ins, n.ins = [t] ∧ n.outs = [t]
  /-- The inputs are tensors of input layers. -/
  inputs : ∀ t ∈ ins, ∃ n ∈ nodes, n.op.isInput = true ∧ n.outs = [t]
  insOnce : ins.Nodup
  /-- The other layers do not read their own outputs. -/
  loop : ∀ n ∈ nodes, n.op.isInput = false → ∀ t ∈ n.ins, t ∉ n.outs
  outputs : ∀ t ∈ outs, ∃ n ∈ nodes, t ∈ n.outs
  /-- A nested model is called with its number of inputs and outputs. -/
  arity : ∀ n ∈ nodes, ∀ m, n.op = .model m →
    n.ins.length = m.inputs.length ∧ n.outs.length = m.outputs.length

/-- Not guaranteed by Keras: no layer reads a tensor twice, and a nested model is used once. -/
structure Plain (nodes : List (KNode O)) : Prop where
  distinct : ∀ n ∈ nodes, n.ins.Nodup
  nested : nodes.Pairwise fun a b => a.layer = b.layer → ∀ m, b.op ≠ .model m

/-- Not guaranteed by Keras for a nested model: its inputs are read only as first arguments, none of them is an output,
and no tensor is two outputs. -/
structure Inner (m : KModel O) : Prop where
  first : ∀ n ∈ m.nodes, ∀ i t, n.ins[i]? = some t → t ∈ m.inputs → i = 0
  fresh : ∀ t ∈ m.outputs, t ∉ m.inputs
  outsOnce : m.outputs.Nodup

mutual
/-- The conditions hold for the model and for all models in it. -/
def KModel.Ok : KModel O → Prop
  | .mk nodes ins outs => Level nodes ins outs ∧ Plain nodes ∧ nodesOk nodes
/-- The conditions hold for the nested models. -/
def nodesOk : List (KNode O) → Prop
  | [] => True
  | .mk _ op _ _ :: l => opOk op ∧ nodesOk l
/-- The conditions hold for a nested model. -/
def opOk : KOp O → Prop
  | .input => True
  | .prim _ => True
  | .model m => m.Ok ∧ Inner m
end

end MCT.KReader
