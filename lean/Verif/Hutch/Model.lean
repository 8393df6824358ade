/-
Model of the estimation of Hessian scores.

Sources (under /repo/model_compression_toolkit/core):
  common/hessian/hessian_scores_calculator.py;
  pytorch/hessian/hessian_scores_calculator_pytorch.py, weights_hessian_scores_calculator_pytorch.py,
  activation_hessian_scores_calculator_pytorch.py; the same files of keras.

The model under estimation is given by its Jacobian: the derivative of a sum of outputs with factors is the sum of
the derivatives with these factors (automatic differentiation is taken to be exact).  Random vectors are given:
the theorems range over all of them.
-/
import Mathlib.Algebra.BigOperators.Group.Finset.Basic
import Mathlib.Algebra.Order.Field.Basic
import Mathlib.Algebra.Order.AbsoluteValue.Basic
import Mathlib.Data.Fintype.Pi

namespace MCT.Hutch

variable {R : Type} [Field R]

/-! ### The outputs -/

/-- What the network returns: one tensor as it is, or a list of tensors; given by the shapes. -/
inductive Outs
  | single (shape : List ℕ)
  | many (shapes : List (List ℕ))

/-- `unfold_tensors_list` (`hessian_scores_calculator.py` 74-94): a loop over what the network returns; a loop over
a tensor goes through its first axis. Nested lists are not modelled. `none`: a tensor without axes. -/
def unfold : Outs → Option (List (List ℕ))
  | .single [] => none
  | .single (b :: s) => some (List.replicate b s)
  | .many l => some l

/-- `concat_tensors` (`hessian_scores_calculator_pytorch.py` 42-60, `hessian_scores_calculator_keras.py` 60-79): every
tensor becomes a matrix, all with the same number of rows, and they are put side by side. The number of rows. -/
def catRows (o : Outs) : Option ℕ :=
  (unfold o).bind fun l => (l.mapM List.head?).bind fun rows =>
    match rows with
    | [] => none
    | r :: rest => if rest.all (fun x => decide (x = r)) then some r else none

/-- The inputs of the weights calculator of PyTorch (76): `model(self.input_images)` passes the list of images as
first argument. The placeholder of the first input returns the list, that is all its tensors; there is no argument
for a second input. -/
def weightsInputsTorch {X : Type} (images : List X) (inputs : ℕ) : Option (List (List X)) :=
  (List.range inputs).mapM fun i => ([images] : List (List X))[i]?

/-! ### One random vector -/

/-- The elements of the random vectors: 1 or -1. (`hessian_scores_calculator_pytorch.py` 27-40) -/
def sgn (b : Bool) : R := if b then 1 else -1

section scores
variable {K E C : Type} [Fintype K] [Fintype E] [DecidableEq C]

/-- The gradient of `f_v`, the sum of all outputs with the factors `v`, divided by `rows`: by the elements `e` of the
tensor of interest. `f_v` is a sum in Keras (`rows = 1`) and for activations, and in the weights calculator of PyTorch
the mean over the rows of sums over the columns. -/
def grad (rows : R) (J : K → E → R) (v : K → Bool) (e : E) : R := (∑ k, sgn (v k) * J k e) / rows

/-- Scores per element, per channel (`chan e` is the channel of an element) and per tensor: sums of squares.
Weights, both frameworks (`weights_hessian_scores_calculator_pytorch.py` 104-121,
`weights_hessian_scores_calculator_keras.py` 108-120, 150-183). -/
def elementScore (g : E → R) (e : E) : R := g e ^ 2

def channelScore (chan : E → C) (g : E → R) (c : C) : R := ∑ e with chan e = c, g e ^ 2

def tensorScore (g : E → R) : R := ∑ e, g e ^ 2

/-- The score of a channel of an activation in PyTorch: the mean over the elements of the channel; a tensor with
one element in every channel is left as it is, which is the same.
(`activation_hessian_scores_calculator_pytorch.py` 122-128) -/
def channelMean (chan : E → C) (g : E → R) (c : C) : R :=
  (∑ e with chan e = c, g e ^ 2) / (((Finset.univ.filter fun e => chan e = c).card : ℕ) : R)

end scores

/-! ### The loop over random vectors -/

variable [LinearOrder R]

/-- Scores of all layers of interest. -/
abbrev Scores (R : Type) := ℕ → ℕ → R

/-- The mean so far: `(j * mean + new) / (j + 1)`. -/
def update (j : ℕ) (m a : Scores R) : Scores R := fun n i => ((j : R) * m n i + a n i) / ((j : R) + 1)

/-- The mean of the scores of each layer; `size n` is their number. -/
def means (size : ℕ → ℕ) (m : Scores R) (n : ℕ) : R := (∑ i ∈ Finset.range (size n), m n i) / ((size n : ℕ) : R)

/-- `MIN_HESSIAN_ITER`. -/
def minIter : ℕ := 10

/-- The change of the mean of every layer is small: the largest is below `HESSIAN_COMP_TOLERANCE`. -/
def settled (nodes : ℕ) (size : ℕ → ℕ) (prev : ℕ → R) (m : Scores R) : Bool :=
  (List.range nodes).all fun n =>
    decide (|means size m n - prev n| / (|means size m n| + 1 / 1000000) < 1 / 1000)

/-- Which means are kept for the comparison: in the activation calculator of Keras only those of scores per tensor
(138-149), in the weights calculators all; the activation calculator of PyTorch does not stop early. -/
def loop (nodes : ℕ) (size : ℕ → ℕ) (early : Bool) (approx : ℕ → Scores R) :
    ℕ → ℕ → Scores R → Option (ℕ → R) → Scores R × ℕ
  | 0, j, m, _ => (m, j)
  | left + 1, j, m, prev =>
    let m' := update j m (approx j)
    if early && decide (minIter < j) && (prev.elim false fun p => settled nodes size p m') then (m', j + 1)
    else loop nodes size early approx left (j + 1) m' (if early then some (means size m') else none)

/-- The scores after at most `n` random vectors, and the number of vectors used. -/
def estimate (nodes : ℕ) (size : ℕ → ℕ) (early : Bool) (approx : ℕ → Scores R) (n : ℕ) : Scores R × ℕ :=
  loop nodes size early approx n 0 (fun _ _ => 0) none

end MCT.Hutch
