import Verif.ActQ.Props

/-!
# Model of the thresholds of concatenated tensors

`core/keras/graph_substitutions/substitutions/concat_threshold_update.py:25-64`,
`core/pytorch/graph_substitutions/substitutions/concat_threshold_update.py:26-66` (the same code, for other types of
nodes), applied by `core/common/substitutions/apply_substitutions.py:21-37`.
-/

namespace MCT.Concat

open MCT.ActQ MCT.Quant

variable {K : Type}

/-- A candidate: the number of bits and the dictionary of parameters of the activation
(`candidates_quantization_cfg[i].activation_quantization_cfg`). -/
structure Cand (K : Type) where
  method : ℕ
  bits : ℕ
  params : Params K

/-- A node, as far as the substitution looks at it: whether its type is one of the two concatenations (the matcher,
lines 37-39 of both files, and the test of the type of a previous node, 62 and 63), and its candidates. -/
structure Node (K : Type) where
  isConcat : Bool
  cands : List (Cand K)

/-- The graph: the edges in order (parallel edges are several entries) and the nodes. -/
structure Graph (K : Type) where
  edges : List (ℕ × ℕ)
  node : ℕ → Node K

/-- `get_next_nodes`, base_graph.py:310-323: one entry for each edge. -/
def Graph.next (g : Graph K) (n : ℕ) : List ℕ := (g.edges.filter fun e => e.1 = n).map (·.2)

/-- `get_prev_nodes`, base_graph.py:325-343: one entry for each edge. -/
def Graph.prev (g : Graph K) (n : ℕ) : List ℕ := (g.edges.filter fun e => e.2 = n).map (·.1)

/-- `candidates_quantization_cfg[0]....[THRESHOLD] = t`, keras 63, pytorch 64; an `IndexError` without candidates. -/
def setFirst (t : K) : List (Cand K) → Option (List (Cand K))
  | [] => none
  | c :: cs => some ({ c with params := { c.params with threshold := some t } } :: cs)

/-- The node of a graph is replaced (objects of nodes are changed in place). -/
def Graph.set (g : Graph K) (n : ℕ) (x : Node K) : Graph K :=
  { g with node := fun m => if m = n then x else g.node m }

/-- One turn of the loop over the previous nodes, keras 61-63, pytorch 62-64. -/
def visit (t : K) (g : Graph K) (p : ℕ) : Option (Graph K) :=
  if (g.next p).length = 1 ∧ (g.node p).isConcat = false then
    (setFirst t (g.node p).cands).map fun cs => g.set p { g.node p with cands := cs }
  else some g

/-- The threshold of the concatenation, when it has one candidate and this one has a threshold, keras 58-59, pytorch
59-60. -/
def concatThreshold (x : Node K) : Option K :=
  match x.cands with
  | [c] => c.params.threshold
  | _ => none

/-- `substitute`, keras 42-65, pytorch 41-66. -/
def substitute (g : Graph K) (c : ℕ) : Option (Graph K) :=
  match concatThreshold (g.node c) with
  | some t => (g.prev c).foldlM (visit t) g
  | none => some g

/-- The whole substitution, apply_substitutions.py:32-36: `order` are the matched nodes, in the order of the graph. -/
def substituteAll (g : Graph K) (order : List ℕ) : Option (Graph K) := order.foldlM substitute g

end MCT.Concat
