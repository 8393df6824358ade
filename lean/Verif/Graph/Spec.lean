/-
What a graph of layers computes, independently of the edit operations.

A layer is interpreted by a function from its input tensors, in the order of their input index, to
its output tensors.  A valuation gives every node its output tensors; it is right when every input
node carries the model input of its position and every other node carries what its layer computes
from the tensors its edges name.  `Computes g I env outs` says that the model computes the list
`outs` from the inputs `env`.
-/
import Verif.Graph.Model
import Mathlib.Data.List.Sort

namespace MCT.GraphSpec
open MCT.Graph

variable {N V : Type*} [DecidableEq N]

/-- What layers compute: `I n args k` is output `k` of layer `n` on the inputs `args`. -/
abbrev Interp (N V : Type*) := N → List V → Nat → V

/-- The tensors entering node `n`, each with its input index. -/
def incoming (E : List (Edge N)) (v : N → Nat → V) (n : N) : List (Nat × V) :=
  (E.filter (fun e => decide (e.dst = n))).map (fun e => (e.di, v e.src e.si))

/-- The tensors entering node `n` in the order of their input index. -/
def arguments (E : List (Edge N)) (v : N → Nat → V) (n : N) : List V :=
  ((incoming E v n).mergeSort (fun a b => decide (a.1 ≤ b.1))).map Prod.snd

/-- Every node of the graph carries the value it should. -/
def Valuation (g : Gr N) (I : Interp N V) (env : Nat → V) (v : N → Nat → V) : Prop :=
  ∀ n ∈ g.nodes, ∀ k,
    v n k = if n ∈ g.inputs then env (g.inputs.idxOf n) else I n (arguments g.edges v n) k

/-- The model returns `outs` on the inputs `env`. -/
def Computes (g : Gr N) (I : Interp N V) (env : Nat → V) (outs : List V) : Prop :=
  ∃ v, Valuation g I env v ∧ outs = g.outputs.map (fun o => v o.1 o.2)

/-- Two graphs, each with the meaning of its layers, are the same function of the model inputs. -/
def SameFunction (g : Gr N) (I : Interp N V) (g' : Gr N) (I' : Interp N V) : Prop :=
  ∀ env outs, Computes g I env outs ↔ Computes g' I' env outs

/-- The edges that end in a node, and those that leave it. -/
def edgesInto (g : Gr N) (n : N) : List (Edge N) := g.edges.filter (fun e => decide (e.dst = n))
def edgesFrom (g : Gr N) (n : N) : List (Edge N) := g.edges.filter (fun e => decide (e.src = n))

/-- The edges from one node to another. -/
def edgesBetween (g : Gr N) (u w : N) : List (Edge N) :=
  g.edges.filter (fun e => decide (e.src = u) && decide (e.dst = w))

/-- The node is one of the outputs of the model. -/
def IsOutput (g : Gr N) (n : N) : Prop := ∃ k, (n, k) ∈ g.outputs

/-- A node under a new name. -/
def renamed (cur new m : N) : N := if m = cur then new else m

/-- Apply a function to the tensor that enters one input slot and leave the others alone. -/
def atSlot (d : Nat) (f : V → V) (x : Nat × V) : Nat × V := (x.1, if x.1 = d then f x.2 else x.2)

/-- A graph as the readers build it: no dangling end points, no node twice, model inputs without
incoming edges, at most one tensor per input slot of a node, no cycle. -/
structure WellFormed (g : Gr N) : Prop where
  nodes : g.nodes.Nodup
  src : ∀ e ∈ g.edges, e.src ∈ g.nodes
  dst : ∀ e ∈ g.edges, e.dst ∈ g.nodes
  outs : ∀ o ∈ g.outputs, o.1 ∈ g.nodes
  ins : ∀ n ∈ g.inputs, n ∈ g.nodes
  insNodup : g.inputs.Nodup
  insFree : ∀ e ∈ g.edges, e.dst ∉ g.inputs
  slots : ∀ n, ((g.edges.filter (fun e => decide (e.dst = n))).map Edge.di).Nodup
  acyclic : ∃ rank : N → Nat, ∀ e ∈ g.edges, rank e.src < rank e.dst

end MCT.GraphSpec
