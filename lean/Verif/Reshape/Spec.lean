import Verif.Reshape.Model

/-!
# Specification: runs of a graph

What a model computes, stated without the functions that change graphs.
-/

namespace MCT.Reshape

variable {V : Type}

/-- `val` gives the value of every node when node `n` computes `op n` from its inputs (each with its place). -/
def Run (g : G) (op : Nat → List (Nat × V) → V) (val : Nat → V) : Prop :=
  ∀ n ∈ g.nodes, val n = op n ((g.edges.filter (·.dst = n)).map fun e => (e.sink, val e.src))

/-- Every edge is between nodes of the graph. -/
def Closed (g : G) : Prop := ∀ e ∈ g.edges, e.src ∈ g.nodes ∧ e.dst ∈ g.nodes

/-- Nodes are numbered in an order in which they can be computed. -/
def Ordered (g : G) : Prop := ∀ e ∈ g.edges, e.src < e.dst

/-- An edge that gives a size to the reshape `r`: not its first argument. -/
def IsSize (r : Nat) (e : Edge) : Prop := e.dst = r ∧ 0 < e.sink

/-- The output `o` depends on `n`, other than through the sizes of the reshape `r`. -/
inductive Feeds (g : G) (r : Nat) : Nat → Nat → Prop where
  | refl (n : Nat) : Feeds g r n n
  | step {o : Nat} (e : Edge) : e ∈ g.edges → ¬ IsSize r e → Feeds g r e.dst o → Feeds g r e.src o

/-- An ordered graph has at most one run. -/
theorem run_unique {g : G} (hc : Closed g) (ho : Ordered g) {op : Nat → List (Nat × V) → V} {v w : Nat → V}
    (hv : Run g op v) (hw : Run g op w) : ∀ n ∈ g.nodes, v n = w n := by
  intro n
  induction n using Nat.strongRecOn with
  | _ n ih =>
    intro hn
    rw [hv n hn, hw n hn]
    congr 1
    apply List.map_congr_left
    intro e he
    rw [List.mem_filter] at he
    have hd : e.dst = n := by simpa using he.2
    rw [ih e.src (hd ▸ ho e he.1) (hc e he.1).1]

end MCT.Reshape
