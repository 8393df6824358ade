import Verif.Decomp.Tensor
import Mathlib.Data.List.Sort

/-!
# Decomposition of `torch.matmul`

`core/pytorch/graph_substitutions/substitutions/matmul_decomposition.py`.

The nodes that the substitution adds are represented by the tensors they compute, so
connecting a node to its inputs is applying the operation to their values.
-/

namespace MCT.Decomp

/-- An argument of a call in the traced model: the node that computes it (its position in
the traced graph) and whether it is a constant of the model. -/
structure Arg where
  node : ℕ
  const : Bool
  deriving DecidableEq

/-- torch.fx `Node.all_input_nodes`: every input once, in the order of first use
(graph_builders.py:138, 234, 374). -/
def allInputs (args : List Arg) : List Arg := args.eraseDups

/-- `_extract_input_and_output_shapes` (graph_builders.py:126-145): a shape for every
different input. -/
def inputShapes (shape : ℕ → List ℕ) (args : List Arg) : List (List ℕ) :=
  (allInputs args).map fun a => shape a.node

/-- Sources and sink indices of the in-edges of a call, in the order in which networkx
lists them.  `edges_builder` (graph_builders.py:355-395) goes over the sources in the
order of the traced graph; an input that is used `n` times gets `n` edges with consecutive
sink indices from its position among the different inputs; constants have no edge
(graph_builders.py:373). -/
def inEdges (args : List Arg) : List (ℕ × ℕ) :=
  (((allInputs args).filter fun a => !a.const).insertionSort fun a b => a.node ≤ b.node).flatMap
    fun a => (List.range (args.count a)).map fun r => (a.node, (allInputs args).idxOf a + r)

variable {K : Type}

/-- `shape[1:-2]`. -/
def mid (s : List ℕ) : List ℕ := (s.drop 1).take (s.length - 3)

/-- `shape[-2:]`. -/
def lastTwo (s : List ℕ) : List ℕ := s.drop (s.length - 2)

/-- matmul_decomposition.py:29-80, `MatMulParams.__init__`; the shapes whose first entry is
`-1` are kept without it. -/
structure MatMulParams where
  inputExpand : List ℕ
  otherExpand : List ℕ
  inputReshape : List ℕ
  otherReshape : List ℕ
  stack : List ℕ
  output : List ℕ

/-- matmul_decomposition.py:42-80. -/
def matMulParams (is os : List ℕ) : MatMulParams :=
  -- np.max(np.vstack((self.input_shape[1:-2], self.other_shape[1:-2])), axis=0) (l. 48)
  let expand := List.zipWith max (mid is) (mid os)
  let ie := expand ++ lastTwo is
  let oe := expand ++ lastTwo os
  -- int(np.prod(self.input_expand_shape[1:-2])) (l. 54-67)
  let ir := expand.prod :: lastTwo is
  let or := expand.prod :: lastTwo os
  -- [-1] + [self.input_reshape_shape[1]] + self.single_matmul_shape[1:] (l. 76-78)
  let st := [ir.getD 0 0, ir.getD 1 0, or.getD 2 0]
  ⟨ie, oe, ir, or, st, ie.dropLast ++ [st.getLastD 0]⟩

/-- A size of `-1` followed by known sizes. -/
def auto (s : List ℕ) : List (Option ℕ) := none :: s.map some

/-- One operand up to the split: the expand and the reshape node exist only when they are
needed, the first node that exists is connected to the operand
(matmul_decomposition.py:143-176, 226-261, 281-316, 335-368). -/
def operand (own other ex rs : List ℕ) (x : Tensor K) : Option (List (Tensor K)) :=
  (if mid own ≠ mid other ∧ own.drop 1 ≠ ex then broadcastTo (auto ex) x else some x).bind fun x1 =>
    (if 4 < own.length then reshape (auto rs) x1 else some x1).bind unbind1

/-- The products of the slices (matmul_decomposition.py:181-191, 371-429). -/
def products [Field K] (n : ℕ) (xs ys : List (Tensor K)) : Option (List (Tensor K)) :=
  (List.range n).mapM fun i => xs[i]?.bind fun x => ys[i]?.bind fun y => matmul x y

/-- What the nodes that replace a product compute from its operands: operands up to the
split, products of the slices, stack and reshape (matmul_decomposition.py:143-199,
432-472). -/
def runMatMul [Field K] (is os : List ℕ) (x y : Tensor K) : Option (Tensor K) :=
  let p := matMulParams is os
  (operand is os p.inputExpand p.inputReshape x).bind fun xs =>
    (operand os is p.otherExpand p.otherReshape y).bind fun ys =>
      (products (p.inputReshape.getD 0 0) xs ys).bind fun ps =>
        (stack1 ps).bind fun st =>
          if p.stack ≠ p.output then reshape (auto p.output) st else some st

/-- Which operand is which: `_connect_to_graph` unpacks two in-edges and looks at the sink
index of the first one (matmul_decomposition.py:475-501). -/
def connectMatMul : List (ℕ × ℕ) → Option (ℕ × ℕ)
  | [a, b] => if a.2 = 0 then some (a.1, b.1) else some (b.1, a.1)
  | _ => none

/-- What a `torch.matmul` call computes after the substitution (matmul_decomposition.py:
121-212), for a graph with tensors `val` and traced shapes `shape`; `none` is an error, by
the substitution or when the model runs. -/
def matMulCall [Field K] (shape : ℕ → List ℕ) (val : ℕ → Tensor K) (a b : Arg) :
    Option (Tensor K) :=
  match inputShapes shape [a, b] with
  | [is, os] =>
    if is.length ≤ 3 ∧ os.length ≤ 3 then matmul (val a.node) (val b.node)
    else if is.length ≠ os.length then none
    else (connectMatMul (inEdges [a, b])).bind fun r => runMatMul is os (val r.1) (val r.2)
  -- one shape: matmul_node.input_shape[1] fails (l. 136)
  | _ => none

end MCT.Decomp
