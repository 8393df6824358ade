/- Functional calls in Keras models: how they are read and rebuilt. -/
import Verif.Torch.Model

namespace MCT.KReader

/-! Paths are relative to /repo/model_compression_toolkit/core/. -/

/-! ### Dictionaries -/

/-- `dict.get`. -/
def dget {K A : Type} [DecidableEq K] (k : K) (d : List (K × A)) : Option A := (d.find? fun e => decide (e.1 = k)).map (·.2)

/-- `dict.update` with one key. The place of a key in the dictionary is not modelled. -/
def dset {K A : Type} [DecidableEq K] (k : K) (a : A) (d : List (K × A)) : List (K × A) :=
  d.filter (fun e => decide (e.1 ≠ k)) ++ [(k, a)]

/-! ### Calls -/

/-- Where a constant comes from: an array, a tensor, a variable, or a list or tuple that does not begin with an
integer. -/
inductive CKind
  | array
  | tensor
  | var
  | seq
  deriving DecidableEq

/-- A constant with its shape; `data` stands for its entries. -/
structure Const where
  kind : CKind
  shape : List ℕ
  data : ℕ
  deriving DecidableEq

/-- `tf_tensor_to_numpy` for a single tensor; an error (`none`) for a variable, and a vector for a scalar tensor.
keras/tf_tensor_numpy.py 43-72. -/
def Const.conv : Const → Option Const
  | ⟨.array, s, d⟩ => some ⟨.array, s, d⟩
  | ⟨.seq, s, d⟩ => some ⟨.array, s, d⟩
  | ⟨.tensor, s, d⟩ => some ⟨.array, if s = [] then [1] else s, d⟩
  | ⟨.var, _, _⟩ => none

/-- An argument of a call: a tensor of the model, a constant (`is_const`), or anything else, which is passed as it is (a
number, a string, a list of integers). keras/reader/node_builder.py 48-50. Lists of tensors, and empty lists, on which
`is_const` fails, are not modelled. -/
inductive Arg
  | tensor (t : ℕ)
  | const (c : Const)
  | lit (l : ℕ)
  deriving DecidableEq

/-- `is_tensor`. -/
def Arg.tensor? : Arg → Option ℕ
  | .tensor t => some t
  | _ => none

/-- `is_const`. -/
def Arg.isConst : Arg → Bool
  | .const _ => true
  | _ => false

/-- A call of a function: `list` is the first argument, if it is a list and the function is `tf.concat`, `tf.stack` or
`tf.add_n` (keras/reader/node_builder.py 309-326). -/
structure Call where
  list : Option (List Arg)
  args : List Arg
  kwargs : List (String × Arg)
  deriving DecidableEq

/-- `keras_inputs`: the tensors of the flattened arguments; dictionaries are flattened in the order of their keys. -/
def kerasInputs (c : Call) : List ℕ :=
  (c.list.getD []).filterMap Arg.tensor? ++ c.args.filterMap Arg.tensor? ++
    (c.kwargs.insertionSort fun a b => a.1 ≤ b.1).filterMap fun e => e.2.tensor?

/-- A functional node. common/graph/functional_node.py 28-85. -/
structure FNode where
  weights : List (ℕ × Const)
  args : List Arg
  kwargs : List (String × Arg)
  asList : Bool
  allocs : Option (List String)

/-! ### Reading -/

/-- Constants among the arguments, by index. keras/reader/node_builder.py 164-167. -/
def addArgs : ℕ → List Arg → List (ℕ × Const) → Option (List (ℕ × Const))
  | _, [], w => some w
  | i, .const c :: l, w => c.conv.bind fun c' => addArgs (i + 1) l (dset i c' w)
  | i, .tensor _ :: l, w => addArgs (i + 1) l w
  | i, .lit _ :: l, w => addArgs (i + 1) l w

/-- The other arguments are moved to the keyword arguments. keras/reader/node_builder.py 168-172. -/
def moveArgs (allocs : List String) : ℕ → List Arg → List (String × Arg) → Option (List (String × Arg))
  | _, [], kw => some kw
  | i, .const _ :: l, kw => moveArgs allocs (i + 1) l kw
  | i, .tensor t :: l, kw => (allocs[i]?).bind fun k => moveArgs allocs (i + 1) l (dset k (.tensor t) kw)
  | i, .lit x :: l, kw => (allocs[i]?).bind fun k => moveArgs allocs (i + 1) l (dset k (.lit x) kw)

/-- Constants among the keyword arguments, by the index of the parameter. keras/reader/node_builder.py 99-103. -/
def addKwargs (params : List String) : List (String × Arg) → List (ℕ × Const) → Option (List (ℕ × Const))
  | [], w => some w
  | (k, .const c) :: l, w =>
      if k ∈ params then c.conv.bind fun c' => addKwargs params l (dset (params.idxOf k) c' w) else none
  | (_, .tensor _) :: l, w => addKwargs params l w
  | (_, .lit _) :: l, w => addKwargs params l w

/-- The keyword arguments that are kept. keras/reader/node_builder.py 105-107. -/
def keepKw (params : List String) (w : List (ℕ × Const)) (kw : List (String × Arg)) : List (String × Arg) :=
  kw.filter fun e => !((decide (e.1 ∈ params) && (dget (params.idxOf e.1) w).isSome) || e.2.tensor?.isSome)

/-- `_has_const_attributes` for arguments that are not a list. keras/reader/node_builder.py 185-202. -/
def hasConst (c : Call) : Bool := c.args.any Arg.isConst || c.kwargs.any fun e => e.2.isConst

/-- `_build_arguments_alloc` for arguments that are not a list. keras/reader/node_builder.py 112-139. -/
def allocsOf (params : List String) (c : Call) : List String :=
  params.take c.args.length ++ (params.drop c.args.length).filter fun k => (dget k c.kwargs).isSome

/-- The part of `build_node` for functional nodes; `params` are the names of the parameters of the function.
keras/reader/node_builder.py 141-182, 247-285. -/
def readCall (params : List String) (c : Call) : Option FNode :=
  match c.list with
  | some l => (addArgs 0 l []).bind fun w1 => (addKwargs params c.kwargs w1).map fun w =>
      ⟨w, c.args, keepKw params w c.kwargs, true, if l.any Arg.isConst then some [] else none⟩
  | none =>
    let allocs := if hasConst c then allocsOf params c else []
    (addArgs 0 c.args []).bind fun w1 =>
    (if allocs = [] then some c.kwargs else moveArgs allocs 0 c.args c.kwargs).bind fun kw =>
    (addKwargs params kw w1).map fun w =>
      ⟨w, (c.args.zipIdx.filter fun e => !((dget e.2 w1).isSome || e.1.tensor?.isSome ||
          (decide (allocs ≠ []) && (dget (allocs.getD e.2 "") kw).isSome))).map (·.1),
        keepKw params w kw, false, if hasConst c then some allocs else none⟩

/-! ### Building -/

/-- The tensors in the order of the in-edges (`_build_input_tensors_list`, keras/back2framework/keras_model_builder.py
189-211); the index of an edge is the first index of its tensor (keras/reader/connectivity_handler.py 182-198). -/
def edgeOrder (ts : List ℕ) : List ℕ := ts.insertionSort fun a b => ts.idxOf a ≤ ts.idxOf b

/-- Allocation of the inputs to keyword arguments. keras/back2framework/keras_model_builder.py 248-261. -/
def fill (w : List (ℕ × Const)) : ℕ → List String → List (String × Arg) → List ℕ →
    Option (List (String × Arg) × List ℕ)
  | _, [], kw, ins => some (kw, ins)
  | pos, k :: ks, kw, ins =>
    if (dget k kw).isSome then fill w (pos + 1) ks kw ins
    else match dget pos w with
      | some c => fill w (pos + 1) ks (dset k (.const c) kw) ins
      | none => match ins with
        | [] => none
        | t :: ins' => fill w (pos + 1) ks (dset k (.tensor t) kw) ins'

/-- The call of a functional node in the built model, without quantization wrapper.
keras/back2framework/keras_model_builder.py 237-274; calls without input tensors are not modelled. -/
def buildCall (n : FNode) (ins : List ℕ) : Option Call :=
  if n.asList then
    (if n.allocs.isSome then
      MCT.Torch.insertWeights (n.weights.map fun e => (e.1, Arg.const e.2)) (ins.map Arg.tensor)
    else some (ins.map Arg.tensor)).map fun l => ⟨some l, n.args, n.kwargs⟩
  else (fill n.weights 0 (n.allocs.getD []) n.kwargs ins).map fun r => ⟨none, r.2.map Arg.tensor ++ n.args, r.1⟩

/-- A call after reading and building. -/
def roundTrip (params : List String) (c : Call) : Option Call :=
  (readCall params c).bind fun n => buildCall n (edgeOrder (kerasInputs c))

/-! ### Specification: what a function receives -/

/-- What a function sees of an argument. -/
inductive Value
  | tensor (t : ℕ)
  | array (shape : List ℕ) (data : ℕ)
  | lit (l : ℕ)
  deriving DecidableEq

/-- The value of an argument. -/
def Arg.val : Arg → Value
  | .tensor t => .tensor t
  | .const c => .array c.shape c.data
  | .lit l => .lit l

/-- The value of a parameter: one value or a list. -/
inductive Bound
  | one (v : Value)
  | many (l : List Value)
  deriving DecidableEq

/-- The positional arguments. -/
def Call.pos (c : Call) : List Bound :=
  (c.list.map fun l => Bound.many (l.map Arg.val)).toList ++ c.args.map fun a => .one a.val

/-- Python's rules for a call: there are not more arguments than parameters, and a keyword is the name of a parameter
without argument and is given once. -/
def Call.Legal (params : List String) (c : Call) : Prop :=
  c.pos.length ≤ params.length ∧ (c.kwargs.map (·.1)).Nodup ∧ ∀ k ∈ c.kwargs.map (·.1), k ∈ params.drop c.pos.length

/-- The value that a parameter has in a call (`none`: its default). -/
def Call.bound (params : List String) (c : Call) (k : String) : Option Bound :=
  if params.idxOf k < c.pos.length then c.pos[params.idxOf k]? else (dget k c.kwargs).map fun a => .one a.val

/-- Two calls give the function the same arguments. -/
def Same (params : List String) (c c' : Call) : Prop :=
  c'.Legal params ∧ ∀ k ∈ params, c'.bound params k = c.bound params k

end MCT.KReader
