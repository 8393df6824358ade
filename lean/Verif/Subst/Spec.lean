/-
What the layers the substitutions rewrite compute, independently of the substitutions.

A convolution of any kind is a sum over input channels and kernel taps plus a bias.  Where a tap of
an output position reads is given by a function `src` into `Option P`: `none` is a position in the
padding (or between the samples of a strided transposed convolution), where the input counts as 0.
Strides, padding, dilation and the difference between a convolution and a transposed one are all in
`src`; the kinds differ in the layout of the kernel in memory, which is what `weight` spells out.
-/
import Mathlib.Algebra.BigOperators.Group.Finset.Basic
import Mathlib.Algebra.BigOperators.Ring.Finset
import Mathlib.Algebra.Field.Basic

namespace MCT.SubstSpec
open Finset

variable {K P : Type*} [Field K]

/-- The convolution layers of the two frameworks. -/
inductive Kind
  | kerasConv | kerasDepthwise | kerasTranspose | torchConv | torchTranspose
  deriving DecidableEq, Repr

/-- A convolution layer: its kind, channels, groups, kernel height and width, the kernel as the flat
(row major) array the framework stores, and the bias, if there is one. -/
structure Conv (K : Type*) where
  kind : Kind
  cin : Nat
  cout : Nat
  groups : Nat
  kh : Nat
  kw : Nat
  kernel : Nat → K
  bias : Option (Nat → K)

/-- The weight with which input channel `i` at kernel position `t = row * kw + column` enters output
channel `o`. Kernel shapes: Keras Conv2D (kh, kw, in/groups, out), Keras DepthwiseConv2D
(kh, kw, in, multiplier) with output channel `i * multiplier + m`, Keras Conv2DTranspose
(kh, kw, out, in), PyTorch Conv2d (out, in/groups, kh, kw), PyTorch ConvTranspose2d
(in, out/groups, kh, kw). Channels of different groups do not meet. -/
def Conv.weight (c : Conv K) (o i t : Nat) : K :=
  match c.kind with
  | .kerasConv =>
    if i / (c.cin / c.groups) = o / (c.cout / c.groups) then
      c.kernel ((t * (c.cin / c.groups) + i % (c.cin / c.groups)) * c.cout + o) else 0
  | .kerasDepthwise =>
    if i = o / (c.cout / c.cin) then
      c.kernel ((t * c.cin + i) * (c.cout / c.cin) + o % (c.cout / c.cin)) else 0
  | .kerasTranspose => c.kernel ((t * c.cout + o) * c.cin + i)
  | .torchConv =>
    if i / (c.cin / c.groups) = o / (c.cout / c.groups) then
      c.kernel ((o * (c.cin / c.groups) + i % (c.cin / c.groups)) * (c.kh * c.kw) + t) else 0
  | .torchTranspose =>
    if i / (c.cin / c.groups) = o / (c.cout / c.groups) then
      c.kernel ((i * (c.cout / c.groups) + o % (c.cout / c.groups)) * (c.kh * c.kw) + t) else 0

/-- The channel counts fit the kind of layer. -/
structure Conv.Valid (c : Conv K) : Prop where
  cin : 0 < c.cin
  cout : 0 < c.cout
  groups : 0 < c.groups
  groupsIn : c.groups ∣ c.cin
  groupsOut : c.groups ∣ c.cout
  depthwise : c.kind = .kerasDepthwise → c.cin ∣ c.cout
  ungrouped : c.kind = .kerasTranspose → c.groups = 1

/-- What a tap reads. -/
def tap (X : Nat → P → K) (i : Nat) : Option P → K
  | none => 0
  | some p => X i p

/-- An optional vector, absent meaning a constant. -/
def valueOr (v : Option (Nat → K)) (d : K) (o : Nat) : K := (v.map (fun f => f o)).getD d

/-- Output channel `o` of the layer at position `p`. -/
def Conv.out (c : Conv K) (src : P → Nat → Option P) (X : Nat → P → K) (o : Nat) (p : P) : K :=
  (∑ i ∈ range c.cin, ∑ t ∈ range (c.kh * c.kw), c.weight o i t * tap X i (src p t)) +
    valueOr c.bias 0 o

/-- A batch normalisation layer with its stored statistics; `gamma` or `beta` may be absent. -/
structure BN (K : Type*) where
  gamma : Option (Nat → K)
  beta : Option (Nat → K)
  mean : Nat → K
  var : Nat → K
  eps : K

/-- What batch normalisation computes at inference; `sqrt` is a parameter. -/
def BN.out (sqrt : K → K) (n : BN K) (X : Nat → P → K) (c : Nat) (p : P) : K :=
  (X c p - n.mean c) / sqrt (n.var c + n.eps) * valueOr n.gamma 1 c +
    valueOr n.beta 0 c

/-! ### Where taps read, for the concrete cases -/

/-- One spatial axis of a convolution: size `n`, stride, padding, dilation: output position `p`,
tap `t` reads `p * stride + t * dilation - padding` if that is inside. -/
def convAxis (n stride pad dil : Nat) (p t : Nat) : Option Nat :=
  let q := p * stride + t * dil
  if pad ≤ q ∧ q - pad < n then some (q - pad) else none

/-- One spatial axis of a transposed convolution: output position `q`, tap `t` reads `p` when
`p * stride + t * dilation = q + padding`. -/
def transposeAxis (n stride pad dil : Nat) (q t : Nat) : Option Nat :=
  let r := q + pad
  if t * dil ≤ r ∧ stride ∣ (r - t * dil) ∧ (r - t * dil) / stride < n then
    some ((r - t * dil) / stride) else none

end MCT.SubstSpec
