import Mathlib.Algebra.BigOperators.Group.List.Basic
import Mathlib.Algebra.Order.Field.Rat
import Mathlib.Algebra.Field.Basic
import Mathlib.Tactic.Ring
import Mathlib.Tactic.Linarith

/-!
# Tensors and the framework operations that decomposed layers are made of

A tensor is a shape and a value for every index list.  Only indices inside the shape
mean anything; all statements are about those.  The operations are the documented
behaviour of the PyTorch and Keras operations that the decompositions instantiate
(trusted, not code of this repository); an operation that raises is `none`.
-/

namespace MCT.Decomp

/-- A tensor: its shape and its entries. -/
structure Tensor (K : Type) where
  shape : List ℕ
  get : List ℕ → K

/-- The index list lies inside the shape. -/
def Valid (s i : List ℕ) : Prop := List.Forall₂ (fun a d => a < d) i s

instance (s i : List ℕ) : Decidable (Valid s i) := by
  unfold Valid; infer_instance

/-- Position of an index in row-major order. -/
def flat : List ℕ → List ℕ → ℕ
  | _ :: s, i :: is => i * s.prod + flat s is
  | _, _ => 0

/-- Index at a position in row-major order. -/
def unflat : List ℕ → ℕ → List ℕ
  | [], _ => []
  | _ :: s, n => (n / s.prod) :: unflat s (n % s.prod)

variable {K : Type}

/-- Sum of `f 0, …, f (n-1)`. -/
def sumN [Field K] (n : ℕ) (f : ℕ → K) : K := ((List.range n).map f).sum

/-- The target shape of a reshape: `none` is `-1`, inferred from the other sizes. -/
def resolve (total : ℕ) (tgt : List (Option ℕ)) : Option (List ℕ) :=
  match (tgt.filter Option.isNone).length with
  | 0 => if (tgt.map (·.getD 0)).prod = total then some (tgt.map (·.getD 0)) else none
  | 1 =>
    let r := (tgt.filterMap id).prod
    if r = 0 ∨ total % r ≠ 0 then none else some (tgt.map (·.getD (total / r)))
  | _ => none

/-- `reshape`: same entries in row-major order. -/
def reshape (tgt : List (Option ℕ)) (t : Tensor K) : Option (Tensor K) :=
  (resolve t.shape.prod tgt).map fun s => ⟨s, fun i => t.get (unflat t.shape (flat s i))⟩

/-- Index that broadcasting reads: size-one dimensions are read at zero. -/
def bidx (s i : List ℕ) : List ℕ := List.zipWith (fun d a => if d = 1 then 0 else a) s i

/-- Sizes of `torch.broadcast_to` of a tensor of the same rank: `-1` keeps the size,
another size has to be the size of the tensor or stretch a size of one. -/
def expandShape : List ℕ → List (Option ℕ) → Option (List ℕ)
  | [], [] => some []
  | d :: s, none :: t => (expandShape s t).map (d :: ·)
  | d :: s, some e :: t => if d = e ∨ d = 1 then (expandShape s t).map (e :: ·) else none
  | _, _ => none

/-- `torch.broadcast_to` to a shape of the same rank. -/
def broadcastTo (tgt : List (Option ℕ)) (t : Tensor K) : Option (Tensor K) :=
  (expandShape t.shape tgt).map fun s => ⟨s, fun i => t.get (bidx t.shape i)⟩

/-- Common shape of two shapes of the same rank under broadcasting. -/
def bshape : List ℕ → List ℕ → Option (List ℕ)
  | [], [] => some []
  | a :: s, b :: t =>
    if a = b ∨ b = 1 then (bshape s t).map (a :: ·)
    else if a = 1 then (bshape s t).map (b :: ·) else none
  | _, _ => none

/-- `matmul` of two tensors of the same rank (at least two): matrices in the last two
dimensions, the others are broadcast. -/
def matmul [Field K] (x y : Tensor K) : Option (Tensor K) :=
  match x.shape.reverse, y.shape.reverse with
  | p :: m :: xs, n :: p' :: ys =>
    if p = p' then
      (bshape xs.reverse ys.reverse).map fun s =>
        ⟨s ++ [m, n], fun i =>
          sumN p fun k =>
            x.get (bidx xs.reverse (i.take s.length) ++ [i.getD s.length 0, k]) *
              y.get (bidx ys.reverse (i.take s.length) ++ [k, i.getD (s.length + 1) 0])⟩
    else none
  | _, _ => none

/-- `torch.unbind(t, 1)`: the slices along the second dimension. -/
def unbind1 (t : Tensor K) : Option (List (Tensor K)) :=
  match t.shape with
  | b :: d :: r => some ((List.range d).map fun j =>
      ⟨b :: r, fun i => t.get (i.getD 0 0 :: j :: i.drop 1)⟩)
  | _ => none

/-- `torch.split(t, 1, dim=1)`: slices of size one along the second dimension. -/
def split1 (t : Tensor K) : Option (List (Tensor K)) :=
  match t.shape with
  | b :: d :: r => some ((List.range d).map fun j =>
      ⟨b :: 1 :: r, fun i => t.get (i.getD 0 0 :: (i.getD 1 0 + j) :: i.drop 2)⟩)
  | _ => none

/-- `torch.stack(ts, dim=1)`, `tf.stack(ts, axis=1)`. -/
def stack1 (ts : List (Tensor K)) : Option (Tensor K) :=
  match ts with
  | [] => none
  | t :: _ =>
    match t.shape with
    | b :: r =>
      if ts.all fun u => u.shape == t.shape then
        some ⟨b :: ts.length :: r, fun i =>
          (ts.getD (i.getD 1 0) t).get (i.getD 0 0 :: i.drop 2)⟩
      else none
    | [] => none

/-- Entry of a concatenation along dimension `a`. -/
def catGet (a : ℕ) : Tensor K → List (Tensor K) → List ℕ → K
  | t, [], i => t.get i
  | t, u :: us, i =>
    if i.getD a 0 < t.shape.getD a 0 then t.get i
    else catGet a u us (i.set a (i.getD a 0 - t.shape.getD a 0))

/-- `torch.cat(ts, dim=a)`, `Concatenate(axis=a)`. -/
def cat (a : ℕ) (ts : List (Tensor K)) : Option (Tensor K) :=
  match ts with
  | [] => none
  | t :: us =>
    if a < t.shape.length ∧ us.all fun u => u.shape.set a 0 == t.shape.set a 0 then
      some ⟨t.shape.set a ((ts.map fun u => u.shape.getD a 0).sum), catGet a t us⟩
    else none

/-- Swap two entries of a list. -/
def swap (a b : ℕ) (l : List ℕ) : List ℕ := (l.set a (l.getD b 0)).set b (l.getD a 0)

/-- `torch.transpose(t, a, b)`. -/
def transpose (a b : ℕ) (t : Tensor K) : Option (Tensor K) :=
  if a < t.shape.length ∧ b < t.shape.length then
    some ⟨swap a b t.shape, fun i => t.get (swap a b i)⟩
  else none

/-- `tf.transpose(t, perm)`, `Permute`: dimension `j` of the result is dimension `perm[j]`
of the argument. -/
def permute (perm : List ℕ) (t : Tensor K) : Option (Tensor K) :=
  if perm.Perm (List.range t.shape.length) then
    some ⟨perm.map fun p => t.shape.getD p 0, fun i =>
      t.get ((List.range t.shape.length).map fun a => i.getD (perm.idxOf a) 0)⟩
  else none

/-- Softmax over the last dimension; `e` is the exponential. -/
def softmax [Field K] (e : K → K) (t : Tensor K) : Tensor K :=
  ⟨t.shape, fun i =>
    e (t.get i) / sumN (t.shape.getLastD 0) fun j => e (t.get (i.dropLast ++ [j]))⟩

/-- `nn.Conv1d` with a kernel of size one: weights (out, in, 1), input (batch, in, length). -/
def conv1d [Field K] (w : Tensor K) (b : Option (Tensor K)) (x : Tensor K) :
    Option (Tensor K) :=
  match w.shape, x.shape with
  | [o, c, 1], [n, c', l] =>
    if c = c' ∧ (b.all fun t => t.shape == [o]) then
      some ⟨[n, o, l], fun i =>
        (sumN c fun k => w.get [i.getD 1 0, k, 0] * x.get [i.getD 0 0, k, i.getD 2 0]) +
          (b.map fun t => t.get [i.getD 1 0]).getD 0⟩
    else none
  | _, _ => none

/-- Keras `Conv2D` with a 1×1 kernel: weights (1, 1, in, out), input (batch, h, w, in). -/
def conv2d [Field K] (w : Tensor K) (b : Option (Tensor K)) (x : Tensor K) :
    Option (Tensor K) :=
  match w.shape, x.shape with
  | [1, 1, c, o], [n, h, l, c'] =>
    if c = c' ∧ (b.all fun t => t.shape == [o]) then
      some ⟨[n, h, l, o], fun i =>
        (sumN c fun k =>
          x.get [i.getD 0 0, i.getD 1 0, i.getD 2 0, k] * w.get [0, 0, k, i.getD 3 0]) +
          (b.map fun t => t.get [i.getD 3 0]).getD 0⟩
    else none
  | _, _ => none

/-- Multiplication by a number. -/
def mulScalar [Field K] (c : K) (t : Tensor K) : Tensor K := ⟨t.shape, fun i => t.get i * c⟩

/-- Entry of a tensor broadcast to a shape of at least its rank. -/
def bget (t : Tensor K) (i : List ℕ) : K :=
  t.get (bidx t.shape (i.drop (i.length - t.shape.length)))

/-- Sum with a tensor that is broadcast to the shape of the first one. -/
def addTo [Field K] (x m : Tensor K) : Option (Tensor K) :=
  if m.shape.length ≤ x.shape.length ∧
      (List.zipWith (fun a b => a == b || a == 1) m.shape
        (x.shape.drop (x.shape.length - m.shape.length))).all id then
    some ⟨x.shape, fun i => x.get i + bget m i⟩
  else none

/-- Two tensors are the same: same shape, same entries inside it. -/
def Same (t u : Tensor K) : Prop :=
  t.shape = u.shape ∧ ∀ i, Valid t.shape i → t.get i = u.get i

end MCT.Decomp
