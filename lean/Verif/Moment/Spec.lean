import Verif.Moment.Model

/-!
# Specification: what every layer sees, and moving averages

The values in a model when marked normalizations use the statistics of the batch; nothing is updated here.
-/

namespace MCT.Moment

variable {V K : Type}

/-- The output of a layer for an argument: marked normalizations use the batch, and in Keras also trainable ones;
in Keras dropout drops. -/
def outOf (fw : Fw) (pass : Nat) (x : V) : Op V K → V
  | .bn b => if b.flagged || (decide (fw = .keras) && b.trainable) then b.train x else b.infer b.mean b.var x
  | .dropout mask => if fw = .keras then mask pass x else x
  | .fn f => f x

/-- The batch followed by the outputs of the layers. -/
def values (fw : Fw) (pass : Nat) (env : List V) (ls : List (Layer V K)) : List V :=
  ls.foldl (fun e l => e ++ [outOf fw pass (l.arg e) l.op]) env

/-- The argument of layer `j` of a model on a batch. -/
def seen (fw : Fw) (pass : Nat) (d : V) (ls : List (Layer V K)) (l : Layer V K) (j : Nat) : V :=
  l.arg (values fw pass [d] (ls.take j))

/-- The moving average of a sequence of batch statistics, in closed form. -/
def average [Ring K] (rho : K) (start : K) (stats : List K) : K :=
  (1 - rho) ^ stats.length * start +
    rho * ∑ i ∈ Finset.range stats.length, (1 - rho) ^ (stats.length - 1 - i) * stats.getD i 0

end MCT.Moment
