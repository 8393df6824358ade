/-
Model of the weight updates of the collapsing substitutions and of the replacement of depthwise
convolutions.

Sources (under /repo/model_compression_toolkit/core):
  common/substitutions/linear_collapsing.py
  keras/graph_substitutions/substitutions/linear_collapsing.py
  pytorch/graph_substitutions/substitutions/linear_collapsing.py
  keras/graph_substitutions/substitutions/residual_collapsing.py
  pytorch/graph_substitutions/substitutions/residual_collapsing.py
  keras/graph_substitutions/substitutions/dwconv_to_conv.py
-/
import Verif.Subst.Model

namespace MCT.Subst
open MCT.SubstSpec Finset

variable {K P : Type*} [Field K]

/-! ### Two convolutions -/

/-- Item `n` of the padded identity batch (keras linear_collapsing.py 75-82, pytorch 66-72): channel `n`
is 1 at the one position that is not padding. -/
def eyePadded (n top left : Nat) : Nat → Nat × Nat → K :=
  fun i p => if i = n ∧ p = (top, left) then 1 else 0

/-- Where a convolution with stride 1 and no padding reads. -/
def validSrc (kw : Nat) (p : Nat × Nat) (t : Nat) : Option (Nat × Nat) :=
  some (p.1 + t / kw, p.2 + t % kw)

/-- `conv2_out` (keras 84-88, pytorch 74-79): both kernels, without biases, run on item `n` of the
identity batch. -/
def runBoth (c1 c2 : Conv K) (top left n o : Nat) (p : Nat × Nat) : K :=
  Conv.out ({ c2 with bias := none } : Conv K) (validSrc c2.kw)
    (Conv.out ({ c1 with bias := none } : Conv K) (validSrc c1.kw) (eyePadded n top left)) o p

/-- The padding of the identity above and to the left (and, as `2 * k - 2` is even, below and to the
right): `ceil((x_pad - 1) / 2) = kx - 1`. Keras pads axis 1 by `kx` and axis 2 by `ky`; PyTorch's
`F.pad` takes the last axis first, so it pads the width by `kx` and the height by `ky`. -/
def eyePad (c1 c2 : Conv K) : Nat × Nat :=
  let kx := c1.kh + c2.kh - 1
  let ky := c1.kw + c2.kw - 1
  match c1.kind with
  | .torchConv => (ky - 1, kx - 1)
  | _ => (kx - 1, ky - 1)

/-- The collapsed bias (keras 96-103, pytorch 87-94) and its shape: `tf.squeeze` makes a bias of one
entry a scalar of shape (), which adding the bias of the second layer makes a vector again. -/
def collapseBias (c1 c2 : Conv K) : Option ((Nat → K) × List Nat) :=
  let sums : Nat → K := fun o =>
    (match c1.bias with
    | none => 0
    | some b1 => ∑ m ∈ range c1.cout, b1 m * ∑ t ∈ range (c2.kh * c2.kw), c2.weight o m t)
  match c1.bias, c2.bias with
  | some _, some b2 => some (fun o => sums o + b2 o, [c2.cout])
  | some _, none =>
      some (sums, if c1.kind = .kerasConv ∧ c2.cout = 1 then [] else [c2.cout])
  | none, some b2 => some (b2, [c2.cout])
  | none, none => none

/-- A layer the substitution makes: the layer whose kernel has the computed shape, the shape of its
bias, and the channels the node reports for its output: the node is a copy of the first node whose
input shape, weights, filters and name are set, but not its output shape (linear_collapsing.py
156-169). -/
structure Collapsed (K : Type*) where
  layer : Conv K
  biasShape : Option (List Nat)
  reportedChannels : Nat

/-- `conv2d_collapsing_fn`: `none` when the frameworks refuse to convolve because the kernel is larger
than the padded identity. The output of the two convolutions has the spatial size `h × w`; it is
reversed along both axes and its axes are permuted to those of a kernel. -/
def collapseConv (c1 c2 : Conv K) : Option (Collapsed K) :=
  let pad := eyePad c1 c2
  if c1.kh + c2.kh ≤ 2 * pad.1 + 2 ∧ c1.kw + c2.kw ≤ 2 * pad.2 + 2 then
    let h := 2 * pad.1 + 3 - c1.kh - c2.kh
    let w := 2 * pad.2 + 3 - c1.kw - c2.kw
    let at_ (y x n o : Nat) : K := runBoth c1 c2 pad.1 pad.2 n o (h - 1 - y, w - 1 - x)
    let kernel : Nat → K :=
      match c1.kind with
      | .torchConv => fun j =>
          let s := [c2.cout, c1.cin, h, w]
          at_ (coord s 2 j) (coord s 3 j) (coord s 1 j) (coord s 0 j)
      | _ => fun j =>
          let s := [h, w, c1.cin, c2.cout]
          at_ (coord s 0 j) (coord s 1 j) (coord s 2 j) (coord s 3 j)
    some ⟨⟨c1.kind, c1.cin, c2.cout, 1, h, w, kernel, (collapseBias c1 c2).map Prod.fst⟩,
      (collapseBias c1 c2).map Prod.snd, c1.cout⟩
  else none

/-- The attributes of a convolution the substitution reads; `pad = none` is a string. -/
structure Attrs where
  strides : Nat × Nat
  dilations : Nat × Nat
  pad : Option (Nat × Nat)
deriving DecidableEq

/-- The number of entries of the kernel. -/
def kernelSize (c : Conv K) : Nat := (kernelShape c).prod

/-- The conditions and the weights of `Conv2DCollapsing.substitute` (linear_collapsing.py 113-150):
`ok none` when the pair is left alone, `error` when the frameworks raise. Both layers are of the same
framework (Keras Conv2D or PyTorch Conv2d); the second one has no activation of its own (Keras
activations are split off before this substitution). -/
def collapsePair (c1 : Conv K) (a1 : Attrs) (c2 : Conv K) (a2 : Attrs) :
    Except Unit (Option (Collapsed K)) :=
  if (c2.kh = 1 ∧ c2.kw = 1) ∧ a1.strides = (1, 1) ∧ a2.strides = (1, 1) ∧ a1.dilations = (1, 1) ∧
      a2.dilations = (1, 1) ∧ c1.groups = 1 ∧ c2.groups = 1 ∧ (a2.pad = none ∨ a2.pad = some (0, 0)) then
    match collapseConv c1 c2 with
    | none => .error ()
    | some d =>
      if kernelSize c1 + kernelSize c2 < kernelSize d.layer then .ok none else .ok (some d)
  else .ok none

/-! ### The loop over the matches -/

/-- `linear_collapsing_substitute` (common/substitutions/linear_collapsing_substitution.py 19-52) for any
kind of graphs and matches: after each substitution the matches are searched again; the first match
that was not tried before is tried; it ends when there is none. `fuel` bounds the number of rounds;
`none` is a loop that has not ended. -/
def collapseLoop {G M : Type*} [DecidableEq M] (find : G → List M) (subst : G → M → G) :
    Nat → G → List M → Option (G × List M)
  | 0, _, _ => none
  | fuel + 1, g, tried =>
    match (find g).find? (fun m => decide (m ∉ tried)) with
    | none => some (g, tried)
    | some m => collapseLoop find subst fuel (subst g m) (tried ++ [m])

/-! ### A convolution and an added constant -/

/-- numpy's broadcasting of a constant of shape `s` against a vector of `n` entries, when the result
can be a vector of `n` entries: scalars, one-entry vectors and vectors of `n` entries. -/
def fitsVector (s : List Nat) (n : Nat) : Bool := decide (s = [] ∨ s = [1] ∨ s = [n])

/-- `op2d_add_const_collapsing_fn` (keras linear_collapsing.py 146-171): the new bias and whether it
has the shape of one: with a bias, the constant is broadcast against it; without one, the constant is
the new bias as it is. The constant is given by its shape and its flat entries. -/
def addConstBias (c : Conv K) (shape : List Nat) (const : Nat → K) : Option (Nat → K) :=
  match c.bias with
  | none => if shape = [c.cout] then some const else none
  | some b =>
    if fitsVector shape c.cout then
      some (fun o => const (if shape = [c.cout] then o else 0) + b o)
    else none

/-- The new layer; `none` when its bias is not a vector of one entry per channel. -/
def addConst (c : Conv K) (shape : List Nat) (const : Nat → K) : Option (Conv K) :=
  (addConstBias c shape const).map (fun b => { c with bias := some b })

/-! ### A convolution and its input added to its output -/

/-- `residual_collapsing_fn` (keras residual_collapsing.py 41-63, pytorch 38-59): 1 is added to
`kernel[(kH-1)//2, (kW-1)//2, i, i]` for every output channel `i`; indexing past the input channels of
the kernel raises, which is `none`. Layers of other kinds are not matched. -/
def residualKernel (c : Conv K) : Option (Nat → K) :=
  let ih := (c.kh - 1) / 2
  let iw := (c.kw - 1) / 2
  if c.cout ≤ c.cin / c.groups then
    match c.kind with
    | .kerasConv => some (fun j =>
        if coord (kernelShape c) 0 j = ih ∧ coord (kernelShape c) 1 j = iw ∧
            coord (kernelShape c) 2 j = coord (kernelShape c) 3 j
        then c.kernel j + 1 else c.kernel j)
    | .torchConv => some (fun j =>
        if coord (kernelShape c) 2 j = ih ∧ coord (kernelShape c) 3 j = iw ∧
            coord (kernelShape c) 0 j = coord (kernelShape c) 1 j
        then c.kernel j + 1 else c.kernel j)
    | _ => none
  else none

/-! ### A depthwise convolution as a grouped one -/

/-- `DwconvToConv.substitute` (keras dwconv_to_conv.py 79-113): nothing happens with multiplier 1;
otherwise the kernel is reshaped to (kh, kw, 1, in * multiplier), which leaves its flat order, and the
layer becomes a convolution with a group per input channel. -/
def dwToConv (c : Conv K) : Option (Conv K) :=
  if c.cout / c.cin = 1 then none
  else some { c with kind := .kerasConv, groups := c.cin, cout := c.cin * (c.cout / c.cin) }

end MCT.Subst
