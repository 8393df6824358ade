import Verif.Sens.Model

/-!
# Specification of sensitivity evaluation

Which quantizers a request addresses, and the state of the model in which the request has to be
measured.
-/

namespace MCT.Sens

open MCT.MP

/-- The layer that a request for the quantizer of kind `k` of node `n` addresses: the first layer of
this kind among the layers of the node. -/
def Addressed (m : EvalModel) (k : Kind) (n : ℕ) (l : Layer) : Prop :=
  l.2 = k ∧ ∃ pre post, m.ofNode n = some (pre ++ l :: post) ∧ ∀ x ∈ pre, x.2 ≠ k

/-- The request `(a, w)` asks for layer `l` to be set to `v`. -/
def Requested (m : EvalModel) (a w : Cfg) (l : Layer) (v : Option ℕ) : Prop :=
  ∃ n, ((n, v) ∈ a ∧ Addressed m .act n l) ∨ ((n, v) ∈ w ∧ Addressed m .wts n l)

/-- The state in which a request has to be measured: the requested quantizers are set as requested and
every other quantizer is disabled. -/
def IsConfigured (m : EvalModel) (a w : Cfg) (st : State) : Prop :=
  ∀ l, (∀ v, Requested m a w l v → st l = v) ∧ ((∀ v, ¬ Requested m a w l v) → st l = none)

/-- Every entry of the dict addresses an existing quantizer and a candidate the quantizer has. -/
def Answerable (m : EvalModel) (k : Kind) (a : Cfg) : Prop :=
  ∀ n v, (n, v) ∈ a → ∃ l, Addressed m k n l ∧ ∀ c, v = some c → c < m.ncand l

/-- No layer belongs to two nodes. -/
def Separate (m : EvalModel) : Prop :=
  ∀ n n' ls ls' l, m.ofNode n = some ls → m.ofNode n' = some ls' → l ∈ ls → l ∈ ls' → n = n'

/-- A call that `compute_metric` has to answer. -/
structure GoodCall (m : EvalModel) (c : Call) : Prop where
  something : requestsSomething c.a c.w = true
  keysA : c.a.keys.Nodup
  keysW : c.w.keys.Nodup
  order : IsOrder c.a c.w c.order
  order' : IsOrder c.a c.w c.order'
  act : Answerable m .act c.a
  wts : Answerable m .wts c.w

/-- The model with only the quantizers of node `i` active, at candidate `c`: those of its configurable
activation and of its configurable kernel. -/
def onlyState (n : Node) (i c : ℕ) : State := fun l =>
  if l.1 = i ∧ ((l.2 = .act ∧ n.confAct = true) ∨ (l.2 = .wts ∧ n.anyConfWeight = true)) then some c
  else none

/-- The candidates of the configurable nodes, in the order of the search. -/
def allCandidates (net : Net) : List (ℕ × ℕ) :=
  net.confNodes.flatMap fun i => (List.range (ncands net (i, .act))).map fun c => (i, c)

/-- The sensitivity a candidate has to get. -/
def sensitivityOf {K : Type} (net : Net) (metric : State → Option K) (p : ℕ × ℕ) : Option K :=
  match net.nodes[p.1]? with
  | some n => metric (onlyState n p.1 p.2)
  | none => none

/-- Only kernels vary among the weights. -/
def OnlyKernels (net : Net) : Prop := ∀ n ∈ net.nodes, n.anyConfWeight = true → kernelConf n = true

end MCT.Sens
