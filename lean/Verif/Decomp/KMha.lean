import Verif.Decomp.Mha

/-!
# Decomposition of Keras `MultiHeadAttention`

`core/keras/graph_substitutions/substitutions/multi_head_attention_decomposition.py`.
The nodes that the substitution adds are represented by the tensors they compute.
-/

namespace MCT.Decomp

variable {K : Type}

/-- The attributes and weights of the layer that the substitution reads; a weight that the layer does not have is
`none`.  `out` is the last dimension of the output (`output_shape`, or the size of the query). (l. 42-57) -/
structure KMha (K : Type) where
  heads : ℕ
  keyDim : ℕ
  valueDim : ℕ
  out : ℕ
  axes : List ℕ
  useBias : Bool
  qW : Tensor K
  kW : Tensor K
  vW : Tensor K
  oW : Tensor K
  qB : Option (Tensor K)
  kB : Option (Tensor K)
  vB : Option (Tensor K)
  oB : Option (Tensor K)

/-- The dimensions between batch and channels (l. 61: `zip(query_shape[1:-1], key_shape[1:-1])`). -/
def midAxes (qs ks : List ℕ) : List ℕ := (List.range (min (qs.length - 2) (ks.length - 2))).map (· + 1)

/-- The dimensions that are not attended (l. 65-66). -/
def iterAxes (axes qs ks : List ℕ) : List ℕ := (midAxes qs ks).filter fun a => !axes.contains a

/-- `iter_axes_prod` (l. 67). -/
def iterProd (axes qs ks : List ℕ) : ℕ := ((iterAxes axes qs ks).map fun a => qs.getD a 0).prod

/-- `q_att_axes_prod`, `kv_att_axes_prod` (l. 62-64): the sizes in `s` of the attended dimensions. -/
def attProd (axes qs ks s : List ℕ) : ℕ := (((midAxes qs ks).filter axes.contains).map fun a => s.getD a 0).prod

/-- `perm_dims` (l. 68). -/
def permDims (axes qs ks : List ℕ) : List ℕ := 0 :: iterAxes axes qs ks ++ axes ++ [qs.length - 1]

/-- `output_perm_dims` (l. 69). -/
def outPerm (perm : List ℕ) : List ℕ := (List.range perm.length).map fun i => perm.idxOf i

/-- Keras `Reshape`: the batch dimension is kept. -/
def kreshape (tgt : List ℕ) (t : Tensor K) : Option (Tensor K) :=
  match t.shape with
  | n :: _ => reshape (fixed (n :: tgt)) t
  | [] => none

/-- `_standarize_input_shapes` (l. 109-151) for one input: `Permute` and `Reshape`. -/
def standardize (perm tgt : List ℕ) (x : Tensor K) : Option (Tensor K) := (permute perm x).bind (kreshape tgt)

/-- `w[:, head, :][np.newaxis, np.newaxis]` times a factor (l. 227-236). -/
def headKernel [Field K] (factor : K) (w : Tensor K) (h : ℕ) : Option (Tensor K) :=
  match w.shape with
  | [c, hs, d] => if h < hs then some ⟨[1, 1, c, d], fun i => w.get [i.getD 2 0, h, i.getD 3 0] * factor⟩ else none
  | _ => none

/-- `b[head, :]` times a factor (l. 231-233); a missing weight is an `IndexError`. -/
def headBias [Field K] (factor : K) (b : Option (Tensor K)) (h : ℕ) : Option (Tensor K) :=
  b.bind fun b => match b.shape with
    | [hs, d] => if h < hs then some ⟨[d], fun i => b.get [h, i.getD 0 0] * factor⟩ else none
    | _ => none

/-- One projection of a head as a 1×1 convolution (l. 238-255). -/
def projectHead [Field K] (factor : K) (useBias : Bool) (w : Tensor K) (b : Option (Tensor K)) (h : ℕ) (x : Tensor K) :
    Option (Tensor K) :=
  (headKernel factor w h).bind fun k => (headBias factor b h).bind fun c =>
    conv2d k (if useBias then some c else none) x

/-- `tf.strided_slice(x, [0, i, 0, 0], [0, i + 1, 0, 0], begin_mask=13, end_mask=13)` (l. 172-194). -/
def sliceIter (i : ℕ) (t : Tensor K) : Option (Tensor K) :=
  match t.shape with
  | [n, m, l, c] => if i < m then
      some ⟨[n, 1, l, c], fun x => t.get [x.getD 0 0, x.getD 1 0 + i, x.getD 2 0, x.getD 3 0]⟩ else none
  | _ => none

/-- One iteration of one head (`_slice_per_iteration`, `_calc_attention_head`, l. 154-303): the scores of all positions,
softmax, the weighted values. -/
def headIter [Field K] (e : K → K) (tq tk dk dv : ℕ) (q k v : Tensor K) (i : ℕ) : Option (Tensor K) :=
  (sliceIter i q).bind fun q1 => (sliceIter i k).bind fun k1 => (sliceIter i v).bind fun v1 =>
  (kreshape [tq, dk] q1).bind fun q2 => (kreshape [tk, dk] k1).bind fun k2 => (kreshape [tk, dv] v1).bind fun v2 =>
  (permute [0, 2, 1] k2).bind fun k3 => (matmul q2 k3).bind fun s => matmul (softmax e s) v2

/-- `_stack_iters` (l. 306-332). -/
def stackIters (m tq dv : ℕ) (ts : List (Tensor K)) : Option (Tensor K) :=
  if m = 1 then ts.head?.bind (kreshape [1, tq, dv]) else stack1 ts

/-- One head (l. 461-477). -/
def headOut [Field K] (rs : ℕ → K) (e : K → K) (p : KMha K) (m tq tk : ℕ) (q k v : Tensor K) (h : ℕ) :
    Option (Tensor K) :=
  (projectHead (rs p.keyDim) p.useBias p.qW p.qB h q).bind fun q1 => (projectHead 1 p.useBias p.kW p.kB h k).bind fun k1 =>
  (projectHead 1 p.useBias p.vW p.vB h v).bind fun v1 =>
  ((List.range m).mapM (headIter e tq tk p.keyDim p.valueDim q1 k1 v1)).bind (stackIters m tq p.valueDim)

/-- `_project_output` (l. 354-373). -/
def projectOut [Field K] (p : KMha K) (x : Tensor K) : Option (Tensor K) :=
  (reshape [some 1, some 1, none, some p.out] p.oW).bind fun w => p.oB.bind fun b =>
    conv2d w (if p.useBias then some b else none) x

/-- What the nodes that replace the layer compute from query, key and value (`substitute`, l. 432-492); `qs`, `ks`, `vs`
are the shapes of the model's inputs, their first entry, the batch, is not used. -/
def runKMha [Field K] (rs : ℕ → K) (e : K → K) (p : KMha K) (qs ks vs : List ℕ) (q k v : Tensor K) :
    Option (Tensor K) :=
  let m := iterProd p.axes qs ks
  let tq := attProd p.axes qs ks qs
  let tk := attProd p.axes qs ks ks
  let perm := permDims p.axes qs ks
  (standardize perm [m, tq, qs.getLastD 0] q).bind fun q1 => (standardize perm [m, tk, ks.getLastD 0] k).bind fun k1 =>
  (standardize perm [m, tk, vs.getLastD 0] v).bind fun v1 =>
  ((List.range p.heads).mapM (headOut rs e p m tq tk q1 k1 v1)).bind fun hs => (cat 3 hs).bind fun c =>
  (projectOut p c).bind fun o =>
  -- _destandarize_output_shapes (l. 376-398)
  (kreshape ((perm.drop 1).dropLast.map (fun a => qs.getD a 0) ++ [p.out]) o).bind (permute (outPerm perm))

/-- The in-edges of the node: networkx lists them by their sources in the order in which the reader adds the edges, that
is by the position of the source among the nodes of the model (`reader.py` 36-56); the arguments are the positions of
the sources of query, value and key (and of a mask). -/
def kInEdges (args : List ℕ) : List ℕ := args.insertionSort (· ≤ ·)

/-- `_connect_to_graph` (l. 401-430): query, key and value. -/
def kConnect : List ℕ → Option (ℕ × ℕ × ℕ)
  | [a, b] => some (a, b, b)
  | [a, b, c] => some (a, c, b)
  | _ => none

/-- What a call with the arguments `args` (positions of the sources of the tensors: query, value, possibly key, possibly
a mask) computes after the substitution. -/
def kmhaCall [Field K] (rs : ℕ → K) (e : K → K) (p : KMha K) (qs ks vs : List ℕ) (val : ℕ → Tensor K)
    (args : List ℕ) : Option (Tensor K) :=
  (kConnect (kInEdges args)).bind fun r => runKMha rs e p qs ks vs (val r.1) (val r.2.1) (val r.2.2)

/-! ### What the layer computes -/

/-- All index lists inside a shape. -/
def allIdx : List ℕ → List (List ℕ)
  | [] => [[]]
  | d :: s => (List.range d).flatMap fun i => (allIdx s).map (i :: ·)

/-- Sum over all index lists inside a shape. -/
def sumIdx [Field K] (s : List ℕ) (f : List ℕ → K) : K := ((allIdx s).map f).sum

/-- The index `x` with the entries at the attended dimensions replaced by those of `s`. -/
def replaceAt (axes : List ℕ) (x s : List ℕ) : List ℕ :=
  (List.range x.length).map fun a => if a ∈ axes then s.getD (axes.idxOf a) 0 else x.getD a 0

/-- A projection of head `h`: weights (channels, heads, size), bias (heads, size); `x` is the index of a vector without
its last entry. -/
def kproj [Field K] (w : Tensor K) (b : Option (Tensor K)) (c h j : ℕ) (t : Tensor K) (x : List ℕ) : K :=
  (sumN c fun k => t.get (x ++ [k]) * w.get [k, h, j]) + (b.map fun b => b.get [h, j]).getD 0

/-- Multi-head attention over several dimensions, as documented: for the query at index `x` (batch and position) the
positions in the attended dimensions of the key, weighted by the softmax of the scaled scalar products. -/
def kmhaSpec [Field K] (rs : ℕ → K) (e : K → K) (p : KMha K) (cq ck cv : ℕ) (kdims : List ℕ) (q k v : Tensor K)
    (x : List ℕ) (o : ℕ) : K :=
  let score (h : ℕ) (s : List ℕ) : K := e ((sumN p.keyDim fun j =>
    kproj p.qW p.qB cq h j q x * kproj p.kW p.kB ck h j k (replaceAt p.axes x s)) * rs p.keyDim)
  (sumN p.heads fun h => sumN p.valueDim fun c =>
    (sumIdx kdims fun s => score h s / (sumIdx kdims (score h)) * kproj p.vW p.vB cv h c v (replaceAt p.axes x s)) *
      p.oW.get [h, c, o]) + (p.oB.map fun b => b.get [o]).getD 0

end MCT.Decomp
