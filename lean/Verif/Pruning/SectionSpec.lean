import Verif.Pruning.Sections
import Verif.Pruning.Weights

/-! # Vocabulary of the section properties (C43, C61–C64) -/

namespace MCT.PruningSpec
open MCT.Pruning

/-- `(a, b)` is an edge, it is the only edge out of `a` and the only edge into `b`. -/
def SoleLink (g : PGraph) (a b : ℕ) : Prop :=
  g.edges.count (a, b) = 1 ∧ ∀ e ∈ g.edges, e.1 = a ∨ e.2 = b → e = (a, b)

/-- Nodes are numbered in topological order, and a convolution or dense layer is not an intermediate layer. -/
structure WellFormed (g : PGraph) : Prop where
  forward : ∀ e ∈ g.edges, e.1 < e.2
  bound : ∀ e ∈ g.edges, e.2 < g.n
  kinds : ∀ i, g.entry i = true → g.inter i = false

/-- A section as the documentation describes it. -/
structure IsSection (g : PGraph) (s : Section) : Prop where
  entry : g.entry s.entry = true
  exit : g.entry s.exit = true
  channels : g.chanMatch s.exit s.entry = true
  inters : ∀ m ∈ s.inters, g.inter m = true
  links : List.IsChain (SoleLink g) s.nodes

/-- Masks and weights fit together: one mask per section, as long as the channels it masks; the input
and output channels of an attribute are different axes; intermediate layers have no input-channel axis. -/
structure Fits (g : PGraph) (ss : List Section) (w : ℕ → List PAttr) (masks : ℕ → Option (List Bool))
    (nic : ℕ → ℕ) : Prop where
  keys : ∀ i, (∀ s ∈ ss, s.entry ≠ i) → masks i = none
  axes : ∀ i, ∀ a ∈ w i, ∀ k, a.inAx = some k → a.outAx ≠ some k
  out : ∀ s ∈ ss, ∀ m, masks s.entry = some m → ∀ i, i = s.entry ∨ i ∈ s.inters →
    ∀ a ∈ w i, ∀ k, a.outAx = some k → a.shape[k]? = some m.length
  inp : ∀ s ∈ ss, ∀ m, masks s.entry = some m →
    ∀ a ∈ w s.exit, ∀ k, a.inAx = some k → a.shape[k]? = some m.length
  inter : ∀ s ∈ ss, ∀ i ∈ s.inters, ∀ a ∈ w i, a.inAx = none
  nic : ∀ i, ∀ a ∈ w i, ∀ k, a.inAx = some k → a.shape[k]? = some (nic i)

/-- The masks of the input and output channels of every node: an entry layer has the mask of its section on
its output; intermediate layers on both sides; an exit layer on its input; a first entry layer has all its
input channels; layers outside the sections have no masks. -/
structure NodeMasks (ss : List Section) (masks : ℕ → Option (List Bool)) (nic : ℕ → ℕ)
    (inM outM : ℕ → Option (List Bool)) : Prop where
  entryOut : ∀ s ∈ ss, outM s.entry = masks s.entry
  entryIn : ∀ s ∈ ss, (∀ t ∈ ss, t.exit ≠ s.entry) → inM s.entry = some (List.replicate (nic s.entry) true)
  inter : ∀ s ∈ ss, ∀ i ∈ s.inters, inM i = masks s.entry ∧ outM i = masks s.entry
  exitIn : ∀ s ∈ ss, inM s.exit = masks s.entry
  exitOut : ∀ s ∈ ss, outM s.exit = masks s.exit
  rest : ∀ i, (∀ s ∈ ss, i ∉ s.nodes) → inM i = none ∧ outM i = none

/-- Number of parameters of a graph. -/
def graphParams (n : ℕ) (w : ℕ → List PAttr) : ℕ :=
  ((List.range n).map fun i => ((w i).map fun a => a.shape.prod).sum).sum

/-- Output channels of a layer, read off its weights. -/
def outChannels (attrs : List PAttr) : List (Option ℕ) :=
  attrs.map fun a => a.outAx.bind fun k => a.shape[k]?

/-- The entries of the kept channels, in order. -/
def keptEntries {α : Type} (mask : List Bool) (v : List α) : List α :=
  ((v.zip mask).filter fun p => p.2).map Prod.fst

/-- All attributes are still there, each sliced to the kept channels. -/
def Sliced {α : Type} (mask : List Bool) (before after : Attrs α) : Prop :=
  List.Forall₂ (fun a b => b.1 = a.1 ∧ b.2 = keptEntries mask a.2) before after

/-- Output of the exit layer when the pruned channels contribute nothing. -/
def maskedExit {κ V W : Type} [AddCommMonoid W] (act : κ → V → W) (l : Linear κ W) (mask : List Bool)
    (z : List V) : List W :=
  List.zipWith (fun row b =>
    (List.zipWith (fun (keep : Bool) y => if keep then y else 0) mask (List.zipWith act row z)).sum + b)
    l.kernel l.bias

end MCT.PruningSpec
