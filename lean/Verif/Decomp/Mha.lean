import Verif.Decomp.MatMul

/-!
# Decomposition of `torch.nn.MultiheadAttention`

`core/pytorch/graph_substitutions/substitutions/multi_head_attention_decomposition.py`.
The nodes that the substitution adds are represented by the tensors they compute.
-/

namespace MCT.Decomp

variable {K : Type}

/-- The attributes and weights of the layer that the substitution reads. -/
structure MhaLayer (K : Type) where
  embed : ℕ
  heads : ℕ
  kdim : ℕ
  vdim : ℕ
  batchFirst : Option Bool
  addZero : Option Bool
  biasV : Option (Tensor K)
  inW : Option (Tensor K)
  qW : Option (Tensor K)
  kW : Option (Tensor K)
  vW : Option (Tensor K)
  inB : Option (Tensor K)
  outW : Tensor K
  outB : Option (Tensor K)

/-- The features that are rejected (multi_head_attention_decomposition.py:44-61); the third
condition looks at `BIAS_V` only, the layer has both biases or none. -/
def MhaLayer.accepted (p : MhaLayer K) : Bool :=
  p.batchFirst == some true && (p.addZero.all fun b => b == false) && p.biasV.isNone

/-- `np.split(w, 3)[j]`: a third of the rows. -/
def third (w : Tensor K) (j : ℕ) : Option (Tensor K) :=
  match w.shape with
  | r :: s => if r % 3 = 0 then
      some ⟨r / 3 :: s, fun i => w.get ((j * (r / 3) + i.getD 0 0) :: i.drop 1)⟩
    else none
  | [] => none

/-- `np.expand_dims(w, -1)`. -/
def expandLast (w : Tensor K) : Tensor K := ⟨w.shape ++ [1], fun i => w.get i.dropLast⟩

/-- Kernels of the three input projections, the one of the query scaled
(multi_head_attention_decomposition.py:148-166). -/
def inKernels [Field K] (factor : K) (p : MhaLayer K) :
    Option (Tensor K × Tensor K × Tensor K) :=
  match p.inW with
  | some w =>
    (third (expandLast w) 0).bind fun q => (third (expandLast w) 1).bind fun k =>
      (third (expandLast w) 2).map fun v => (mulScalar factor q, k, v)
  | none =>
    p.qW.bind fun q => p.kW.bind fun k => p.vW.map fun v =>
      (expandLast (mulScalar factor q), expandLast k, expandLast v)

/-- Biases of the three input projections (multi_head_attention_decomposition.py:167-182). -/
def inBiases [Field K] (factor : K) (p : MhaLayer K) :
    Option (Option (Tensor K) × Option (Tensor K) × Option (Tensor K)) :=
  match p.inB with
  | some b =>
    (third b 0).bind fun q => (third b 1).bind fun k =>
      (third b 2).map fun v => (some (mulScalar factor q), some k, some v)
  | none => some (none, none, none)

/-- Transpose and projection of one input (multi_head_attention_decomposition.py:190-260). -/
def project [Field K] (w : Tensor K) (b : Option (Tensor K)) (x : Tensor K) :
    Option (Tensor K) :=
  (transpose 1 2 x).bind (conv1d w b)

/-- One attention head (multi_head_attention_decomposition.py:407-508). -/
def attentionHead [Field K] (e : K → K) (qs ks vs : List (Tensor K)) (h : ℕ) :
    Option (Tensor K) :=
  qs[h]?.bind fun q => ks[h]?.bind fun k => (matmul q k).bind fun s =>
    vs[h]?.bind fun v => matmul (softmax e s) v

/-- A fixed target shape. -/
def fixed (s : List ℕ) : List (Option ℕ) := s.map some

/-- What the nodes that replace the layer compute from query, key and value
(multi_head_attention_decomposition.py:649-720 with the functions it calls); `sq`, `sk`,
`sv` are the shapes of the traced inputs, `rs d` is `d ** -0.5`, `e` the exponential. -/
def runMha [Field K] (rs : ℕ → K) (e : K → K) (p : MhaLayer K) (sq sk sv : List ℕ)
    (q k v : Tensor K) : Option (Tensor K) :=
  match sq, sk, sv with
  | [bq, tq, dq], [bk, tk, dk], [bv, tv, dv] =>
    -- rejected features and assertions (l. 44-80)
    if p.accepted ∧ bq = bk ∧ bk = bv ∧ tk = tv ∧ p.kdim = dk ∧ p.vdim = dv then
      let qd := p.embed / p.heads
      (inKernels (rs qd) p).bind fun w => (inBiases (rs qd) p).bind fun b =>
      (project w.1 b.1 q).bind fun q1 => (project w.2.1 b.2.1 k).bind fun k1 =>
      (project w.2.2 b.2.2 v).bind fun v1 =>
      -- _arrange_before_split (l. 263-340)
      (reshape (fixed [bq, p.heads, qd, tq]) q1).bind fun q2 => (transpose 2 3 q2).bind fun q3 =>
      (reshape (fixed [bk, p.heads, qd, tk]) k1).bind fun k2 =>
      (reshape (fixed [bv, p.heads, qd, tk]) v1).bind fun v2 => (transpose 2 3 v2).bind fun v3 =>
      -- _split_projected (l. 343-404)
      (split1 q3).bind fun qs => (split1 k2).bind fun ks => (split1 v3).bind fun vs =>
      ((List.range p.heads).mapM (attentionHead e qs ks vs)).bind fun hs =>
      -- _cat_heads_reshape (l. 511-567)
      (cat 1 hs).bind fun c => (transpose 1 2 c).bind fun c1 =>
      (reshape (fixed [bq, tq, dq]) c1).bind fun c2 =>
      -- _project_output (l. 570-633)
      (project (expandLast p.outW) p.outB c2).bind (transpose 1 2)
    else none
  | _, _, _ => none

/-- Which input is which: `_connect_to_graph` unpacks the in-edges as query, key and value
in the order in which networkx lists them (multi_head_attention_decomposition.py:653-660). -/
def connectMha : List (ℕ × ℕ) → Option (ℕ × ℕ × ℕ)
  | [a, b, c] => some (a.1, b.1, c.1)
  | _ => none

/-- What a call of the layer computes after the substitution; the call has the arguments
`args`: query, key, value and possibly masks (multi_head_attention_decomposition.py:66,
668-720).  Unpacking another number of input shapes or in-edges fails. -/
def mhaCall [Field K] (rs : ℕ → K) (e : K → K) (p : MhaLayer K) (shape : ℕ → List ℕ)
    (val : ℕ → Tensor K) (args : List Arg) : Option (Tensor K) :=
  match inputShapes shape args with
  | [sq, sk, sv] => (connectMha (inEdges args)).bind fun r =>
      runMha rs e p sq sk sv (val r.1) (val r.2.1) (val r.2.2)
  | _ => none

/-- `operator.getitem` with 0 on a tensor (pytorch_model_builder.py:104, 143): the node that
unpacks the first of the two results of the layer is kept by the substitution and gets the
tensor of the last new node. -/
def getitem0 (t : Tensor K) : Option (Tensor K) :=
  match t.shape with
  | n :: s => if 0 < n then some ⟨s, fun i => t.get (0 :: i)⟩ else none
  | [] => none

end MCT.Decomp
