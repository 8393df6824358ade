import Verif.Decomp.Mha

/-!
# What the layer computes

Multi-head attention as documented: `softmax(Q Kᵀ / √d) V` per head on projected inputs,
heads side by side, then the output projection.
-/

namespace MCT.Decomp

variable {K : Type}

/-- Projections of a layer: an entry of a projected input or output. -/
structure Proj (K : Type) where
  w : ℕ → ℕ → K
  b : ℕ → K

/-- Entry `o` of a projection of the vector `x` of length `n`. -/
def Proj.at [Field K] (p : Proj K) (n : ℕ) (x : ℕ → K) (o : ℕ) : K :=
  (sumN n fun k => p.w o k * x k) + p.b o

/-- One head: for query position `t` the sum of the values of all key positions, weighted
by the softmax of the scaled scalar products. -/
def headSpec [Field K] (e : K → K) (scale : K) (d tk : ℕ) (q : ℕ → K) (k v : ℕ → ℕ → K)
    (c : ℕ) : K :=
  sumN tk fun s =>
    (e ((sumN d fun j => q j * k s j) * scale) /
      sumN tk fun s' => e ((sumN d fun j => q j * k s' j) * scale)) * v s c

/-- Multi-head attention with `heads` heads of size `d`: entry (batch `b`, position `t`,
channel `o`) for query `q`, key `k`, value `v`. -/
def mhaSpec [Field K] (rs : ℕ → K) (e : K → K) (heads d cq ck cv tk : ℕ)
    (pq pk pv po : Proj K) (q k v : ℕ → ℕ → ℕ → K) (b t o : ℕ) : K :=
  po.at (heads * d) (fun c =>
    headSpec e (rs d) d tk
      (fun j => pq.at cq (q b t) (c / d * d + j))
      (fun s j => pk.at ck (k b s) (c / d * d + j))
      (fun s j => pv.at cv (v b s) (c / d * d + j)) (c % d)) o

/-- Rows `j * n …` of the weights and biases of the layer: the three input projections. -/
def MhaLayer.inProj [Field K] (p : MhaLayer K) (j : ℕ) (own : Option (Tensor K)) : Proj K :=
  ⟨fun o k => match p.inW with
    | some w => w.get [j * p.embed + o, k]
    | none => (own.map fun w => w.get [o, k]).getD 0,
   fun o => (p.inB.map fun b => b.get [j * p.embed + o]).getD 0⟩

/-- The output projection of the layer. -/
def MhaLayer.outProj [Field K] (p : MhaLayer K) : Proj K :=
  ⟨fun o k => p.outW.get [o, k], fun o => (p.outB.map fun b => b.get [o]).getD 0⟩

/-- The weights have the shapes PyTorch gives them, the heads divide the embedding. -/
structure MhaLayer.WF (p : MhaLayer K) : Prop where
  heads : 0 < p.heads
  divides : p.heads ∣ p.embed
  weights : (∃ w, p.inW = some w ∧ w.shape = [3 * p.embed, p.embed] ∧ p.kdim = p.embed ∧
      p.vdim = p.embed) ∨
    (p.inW = none ∧ ∃ wq wk wv, p.qW = some wq ∧ p.kW = some wk ∧ p.vW = some wv ∧
      wq.shape = [p.embed, p.embed] ∧ wk.shape = [p.embed, p.kdim] ∧
      wv.shape = [p.embed, p.vdim])
  bias : ∀ b ∈ p.inB, b.shape = [3 * p.embed]
  out : p.outW.shape = [p.embed, p.embed]
  outBias : ∀ b ∈ p.outB, b.shape = [p.embed]

end MCT.Decomp
