import Verif.Decomp.MatMul

/-!
# Decomposition of `torch.nn.functional.scaled_dot_product_attention`

`core/pytorch/graph_substitutions/substitutions/scaled_dot_product_attention.py`.
The nodes that the substitution adds are represented by the tensors they compute.
-/

namespace MCT.Decomp

variable {K : Type}

/-- A call in the traced model: tensors passed by position, tensors passed by keyword in the
order in which they are written, the other positional arguments as truth values, and the
keywords that the substitution reads. -/
structure SdpaCall (K : Type) where
  pos : List Arg
  kw : List Arg
  callArgs : List Bool
  causal : Option Bool
  scale : Option (Option K)

/-- Sources and sink indices of the in-edges of a call with keywords, in the order of
networkx (graph_builders.py:355-395): the uses of an input are counted among the positional
arguments only, and an input has at least one edge. -/
def callEdges (pos kw : List Arg) : List (ℕ × ℕ) :=
  let all := allInputs (pos ++ kw)
  ((all.filter fun a => !a.const).insertionSort fun a b => a.node ≤ b.node).flatMap
    fun a => (List.range (max (pos.count a) 1)).map fun r => (a.node, all.idxOf a + r)

/-- `graph.get_prev_nodes(node, sink_index_sorted=True)` (base_graph.py:325-343, 496-515);
`list.sort` is stable. -/
def prevNodes (edges : List (ℕ × ℕ)) : List ℕ :=
  (edges.insertionSort fun a b => a.2 ≤ b.2).map (·.1)

/-- Query, key and value (scaled_dot_product_attention.py:61-65). -/
def sdpaRoles (pos kw : List Arg) : Option (ℕ × ℕ × ℕ) :=
  let p := prevNodes (callEdges pos kw)
  p[0]?.bind fun q => p[1]?.bind fun k => p[2]?.map fun v => (q, k, v)

/-- `_get_input_by_name(…, "is_causal", 2, False)` (scaled_dot_product_attention.py:48-59,
157). -/
def SdpaCall.isCausal (c : SdpaCall K) : Bool :=
  match c.causal with
  | some b => b
  | none => c.callArgs.getD 2 false

/-- The factor: `input_scale if input_scale else …` (scaled_dot_product_attention.py:86-87);
zero counts as not given.  `scale` can only be passed by keyword. -/
def SdpaCall.factor [Field K] [DecidableEq K] (rs : ℕ → K) (c : SdpaCall K) (d : ℕ) : K :=
  match c.scale with
  | some (some s) => if s = 0 then rs d else s
  | _ => rs d

/-- The add node exists only with a mask (scaled_dot_product_attention.py:112-128, 209-210). -/
def withMask [Field K] (x : Tensor K) : Option (Tensor K) → Option (Tensor K)
  | some t => addTo x t
  | none => some x

/-- What the new nodes compute (scaled_dot_product_attention.py:204-222); the dropout layer
changes nothing in a model that is not being trained.  `m` is the constant of the add node. -/
def runSdpa [Field K] (e : K → K) (factor : K) (m : Option (Tensor K)) (q k v : Tensor K) :
    Option (Tensor K) :=
  (transpose (k.shape.length - 1) (k.shape.length - 2) k).bind fun kt =>
    (matmul q kt).bind fun s =>
      (withMask (mulScalar factor s) m).bind fun s1 => matmul (softmax e s1) v

/-- What a call computes after the substitution (scaled_dot_product_attention.py:185-232).
The mask is the first constant of the node, whatever it is (l. 161-162); `bad` marks
constants that are boolean or not finite.  A fourth in-edge is left at the node, so that
removing it fails (l. 228-231, base_graph.py:483). -/
def sdpaCall [Field K] [DecidableEq K] (rs : ℕ → K) (e : K → K) (shape : ℕ → List ℕ)
    (bad : ℕ → Bool) (val : ℕ → Tensor K) (c : SdpaCall K) : Option (Tensor K) :=
  (sdpaRoles c.pos c.kw).bind fun r =>
    if (shape r.1).length < 2 ∨ (shape r.2.1).length < 2 then none
    else if c.isCausal then none
    else
      let mask := ((allInputs (c.pos ++ c.kw)).find? fun a => a.const).map (·.node)
      if mask.any bad then none
      else if (callEdges c.pos c.kw).length ≠ 3 then none
      else runSdpa e (c.factor rs ((shape r.1).getLastD 0)) (mask.map val)
        (val r.1) (val r.2.1) (val r.2.2)

end MCT.Decomp
