import Mathlib.Data.List.Basic
import Mathlib.Algebra.BigOperators.Group.List.Basic
import Mathlib.Data.Nat.Notation

/-!
# Model of the substitution that makes reshapes static

`core/pytorch/graph_substitutions/substitutions/reshape_with_static_shapes.py`, applied to every `reshape` and
`view` of a PyTorch model, with the edges the reader makes for their sizes
(`core/pytorch/reader/graph_builders.py:357-397`) and the methods of the graph it uses
(`core/common/graph/base_graph.py:454-535, 912-916`).

Tensors are a shape and their values in row-major order; a reshape keeps the values.  What the sizes of a reshape
are computed from is given as a function of the shape of the reshaped tensor.
-/

namespace MCT.Reshape

/-! ## Reshape -/

/-- The shape PyTorch gives a tensor of `n` values reshaped to `dims` (`at::infer_size`): at most one size is -1,
and it is computed from the others; `none`: an error is raised. -/
def resolve (n : Nat) (dims : List Int) : Option (List Nat) :=
  if dims.any (· < -1) then none
  else if 1 < dims.count (-1) then none
  else
    let p := ((dims.filter (· ≠ -1)).map Int.toNat).prod
    if -1 ∈ dims then
      if 0 < p ∧ n % p = 0 then some (dims.map fun d => if d = -1 then n / p else d.toNat) else none
    else if p = n then some (dims.map Int.toNat) else none

/-- The reshape of the user's model: its sizes are computed from the shape of the tensor. -/
def original (f : List Nat → List Int) (shape : List Nat) : Option (List Nat) :=
  resolve shape.prod (f shape)

/-- Sizes set by the substitution (reshape_with_static_shapes.py:57-64): the shape of the output when the model was
traced, with -1 as first entry; `none`: the output has no dimensions (an `IndexError`). -/
def staticDims : List Nat → Option (List Int)
  | [] => none
  | _ :: t => some (-1 :: t.map Int.ofNat)

/-- The reshape after the substitution, for a model traced with a tensor of shape `traced`. -/
def static (f : List Nat → List Int) (traced shape : List Nat) : Option (List Nat) :=
  (original f traced).bind fun o => (staticDims o).bind fun d => resolve shape.prod d

/-! ## Arguments of the call -/

/-- Where the arguments of a call come from: an input of the node, sizes, or something else. -/
inductive Arg where
  | input (i : Nat)
  | sizes (d : List Int)
  | size (d : Int)
  deriving DecidableEq

/-- The place of an input in a call: a position, or a keyword (graph_builders.py:88-96). -/
inductive Place where
  | pos (i : Nat)
  | kw (s : String)
  deriving DecidableEq

/-- The parts of a functional node that make up its call (functional_node.py). -/
structure Call where
  args : List Arg
  kwargs : List (String × Arg)
  allocs : List Place
  /-- Shapes of the inputs; an input that is one integer has the shape [1] (graph_builders.py:145-146). -/
  inShapes : List (List Nat)

/-- Inserting the inputs into the arguments (pytorch_model_builder.py:91-97). -/
def insertInputs : List (Place × Nat) → List Arg → List (String × Arg) → List Arg × List (String × Arg)
  | [], a, k => (a, k)
  | (.kw s, i) :: t, a, k => insertInputs t a (k ++ [(s, .input i)])
  | (.pos p, i) :: t, a, k => insertInputs t (a.take p ++ .input i :: a.drop p) k

/-- `_merge_inputs` (pytorch_model_builder.py:84-101) for a node with `n` inputs. -/
def merge (c : Call) (n : Nat) : List Arg × List (String × Arg) :=
  if c.allocs.isEmpty then ((List.range n).map .input ++ c.args, c.kwargs)
  else insertInputs (c.allocs.zip (List.range n)) c.args c.kwargs

/-- What Python makes of the call `reshape(input, shape)`: the tensor and the sizes; `none`: an argument is missing,
given twice, or of the wrong kind (a `TypeError`). -/
def bind2 (a : List Arg) (k : List (String × Arg)) : Option (Nat × List Int) :=
  match a, k with
  | [.input i, .sizes d], [] => some (i, d)
  | [.input i], [(s, .sizes d)] => if s = "shape" then some (i, d) else none
  | [], [(s, .sizes d), (t, .input i)] => if s = "shape" ∧ t = "input" then some (i, d) else none
  | _, _ => none

/-- The call after the substitution (reshape_with_static_shapes.py:63-78).  Simplification: the batch size of the listed
input, which the code replaces by -1, is left as it is. -/
def subCall (c : Call) (d : List Int) : Call :=
  { args := [.sizes d], kwargs := c.kwargs,
    allocs := c.allocs.take (c.inShapes.countP (· ≠ [1])), inShapes := c.inShapes.take 1 }

/-! ## The graph -/

/-- An edge of the graph (edge.py); the index of the output of the source is left out, it is always 0 for PyTorch
models (graph_builders.py:368). -/
structure Edge where
  src : Nat
  dst : Nat
  sink : Nat
  deriving DecidableEq

/-- The graph (base_graph.py:71-107); edges in the order in which they were added. -/
structure G where
  nodes : List Nat
  edges : List Edge
  inputs : List Nat
  outputs : List Nat

/-- `incoming_edges` (base_graph.py:496-515). -/
def G.ins (g : G) (n : Nat) : List Edge := g.edges.filter (·.dst = n)

/-- `out_edges` (base_graph.py:517-535). -/
def G.outs (g : G) (n : Nat) : List Edge := g.edges.filter (·.src = n)

/-- Leave out the last element with a property; `none`: there is none. -/
def eraseLast (p : Edge → Bool) (l : List Edge) : Option (List Edge) :=
  if l.any p then some (l.reverse.eraseP p).reverse else none

/-- `graph.remove_edge(source, node)` (base_graph.py:912-916): of several edges between the two, networkx removes
the one added last. -/
def G.removeEdge (g : G) (u v : Nat) : Option G :=
  (eraseLast (fun e => e.src = u && e.dst = v) g.edges).map fun es => { g with edges := es }

/-- `graph.remove_edge(e.source_node, node)` for the edges `es` into `n`. -/
def G.removeEdges (g : G) (n : Nat) : List Edge → Option G
  | [] => some g
  | e :: es => (g.removeEdge e.src n).bind fun g' => g'.removeEdges n es

/-- `graph.remove_node(node)` without new inputs or outputs (base_graph.py:469-494): an error for an output, an
input, or a node with edges. -/
def G.removeNode (g : G) (n : Nat) : Option G :=
  if n ∈ g.outputs then none
  else if n ∈ g.inputs then none
  else if (g.ins n).isEmpty && (g.outs n).isEmpty then some { g with nodes := g.nodes.filter (· ≠ n) }
  else none

/-- One call of `clean_graph_from_nodes_without_out_edges` up to its recursive calls
(reshape_with_static_shapes.py:104-111): the nodes to be checked next.  A node that has left the graph has no edges
to be listed: networkx raises an error. -/
def G.cleanOne (g : G) (n : Nat) : Option (G × List Nat) :=
  if n ∈ g.nodes then
    if (g.outs n).isEmpty && !(g.outputs.contains n) then
      (g.removeEdges n (g.ins n)).bind fun g1 => (g1.removeNode n).map fun g2 => (g2, (g.ins n).map (·.src))
    else some (g, [])
  else none

theorem removeEdges_nodes (n : Nat) (es : List Edge) : ∀ {g g' : G}, g.removeEdges n es = some g' →
    g'.nodes = g.nodes ∧ g'.inputs = g.inputs ∧ g'.outputs = g.outputs := by
  induction es with
  | nil => intro g g' h; simp only [G.removeEdges, Option.some.injEq] at h; subst h; exact ⟨rfl, rfl, rfl⟩
  | cons e es ih =>
    intro g g' h
    simp only [G.removeEdges, G.removeEdge, Option.bind_eq_some_iff, Option.map_eq_some_iff] at h
    obtain ⟨g1, ⟨l, _, rfl⟩, h2⟩ := h
    have := ih h2
    exact this

/-- A node is removed or nothing changes: the recursion ends. -/
theorem cleanOne_lt {g g' : G} {n : Nat} {l : List Nat} (h : g.cleanOne n = some (g', l)) :
    g'.nodes.length < g.nodes.length ∨ (g' = g ∧ l = []) := by
  unfold G.cleanOne at h
  split at h
  · rename_i hn
    split at h
    · simp only [Option.bind_eq_some_iff, Option.map_eq_some_iff, Prod.mk.injEq] at h
      obtain ⟨g1, h1, g2, h2, rfl, _⟩ := h
      have hnodes := (removeEdges_nodes n _ h1).1
      unfold G.removeNode at h2
      split at h2
      · cases h2
      · split at h2
        · cases h2
        · split at h2
          · cases h2
            left
            rw [hnodes]
            exact List.length_filter_lt_length_iff_exists.mpr ⟨n, hn, by simp⟩
          · cases h2
    · simp only [Option.some.injEq, Prod.mk.injEq] at h
      right; exact ⟨h.1.symm, h.2.symm⟩
  · cases h

/-- `clean_graph_from_nodes_without_out_edges` for each of the nodes in turn, recursive calls first
(reshape_with_static_shapes.py:86-87, 92-113): the nodes still to be checked are a stack. -/
def G.clean (g : G) : List Nat → Option G
  | [] => some g
  | n :: ns =>
    match _h : g.cleanOne n with
    | none => none
    | some (g', l) => g'.clean (l ++ ns)
  termination_by ns => (g.nodes.length, ns.length)
  decreasing_by
    rcases cleanOne_lt _h with h | ⟨rfl, rfl⟩
    · exact Prod.Lex.left _ _ h
    · exact Prod.Lex.right _ (by simp)

/-- The sizes of a reshape: its edges other than the first (reshape_with_static_shapes.py:83). -/
def G.sizeEdges (g : G) (r : Nat) : List Edge := (g.ins r).filter (0 < ·.sink)

/-- The change of the graph (reshape_with_static_shapes.py:81-88). -/
def G.subst (g : G) (r : Nat) : Option G :=
  (g.removeEdges r (g.sizeEdges r)).bind fun g1 => g1.clean ((g.sizeEdges r).map (·.src))

end MCT.Reshape
