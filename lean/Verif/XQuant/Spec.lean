/-
What a user of the comparison report relies on, in terms of the two networks and of the metrics.
-/
import Verif.XQuant.Model

namespace MCT.XQuant

/-- `t` is the output of the last call of the layer `name` when the network runs on `x`. -/
def LastCall {X T : Type} (n : Net X T) (x : X) (name : String) (t : T) : Prop :=
  ∃ pre post, n.calls x = pre ++ (name, t) :: post ∧ name ∉ post.map Prod.fst

/-- `v` is the mean, over the inputs of a dataset that is not empty, of the numbers that `value` gives for
each input. -/
def IsMean {X K : Type} [Field K] (dataset : List X) (value : X → K → Prop) (v : K) : Prop :=
  dataset ≠ [] ∧ ∃ vals, List.Forall₂ value dataset vals ∧ v = vals.sum / (dataset.length : K)

/-- The metric called `k`: the one of the user if there is one, or the default one. -/
def metricOf {M : Type} (defaults : Dict M) (custom : Option (Dict M)) (k : String) : Option M :=
  match (custom.getD []).lookup k with
  | some m => some m
  | none => defaults.lookup k

/-- The layers that are compared, in the order of the quantized network: pairs of a float layer and a
quantized layer.  A wrapper takes part when the float network has its layer: the layer of the same name in
PyTorch, the layer with the name of the layer inside the wrapper in Keras. -/
def comparedLayers {X T : Type} (fw : Fw) (f q : Net X T) : List (String × String) :=
  match fw with
  | .torch => ((q.wrapped.map Prod.fst).filter (fun n => decide (n ∈ f.layers))).map (fun n => (n, n))
  | .keras => (q.wrapped.filter (fun p => decide (p.2 ∈ f.layers))).map Prod.swap

end MCT.XQuant
