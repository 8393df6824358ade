/-
What fused operations should be, independently of how they are found and recorded.
-/
import Verif.Fusing.Model

namespace MCT.FusingSpec
open MCT.Graph MCT.GraphSpec MCT.Fusing

variable {N P C : Type} [DecidableEq N] [DecidableEq C]

/-- The layers match the pattern one by one. -/
def Fits (S : Setup N P) (p : List P) (w : List N) : Prop :=
  List.Forall₂ (fun l n => S.fits l n = true) p w

/-- The order lists the nodes of the graph once each, and every connection goes forward in it. -/
structure TopoOrder (g : Gr N) (order : List N) : Prop where
  once : order.Nodup
  all : ∀ n, n ∈ order ↔ n ∈ g.nodes
  forward : ∀ e ∈ g.edges, order.idxOf e.src < order.idxOf e.dst

/-- No layer is in two of the operations. -/
def Apart (ops : Dict (List N)) : Prop := ops.Pairwise (fun a b => ∀ n ∈ a.2, n ∉ b.2)

/-- The configuration an operation should have: that of the first pattern its layers match. -/
def FirstCfg (S : Setup N P) (ps : List (Pattern P C)) (w : List N) (c : Option C) : Prop :=
  ∃ before p after, ps = before ++ p :: after ∧ p.cfg = c ∧ Fits S p.layers w ∧
    ∀ q ∈ before, ¬ Fits S q.layers w

/-- The records of the fused operations agree with each other: identifiers are used once, every layer of
an operation is mapped to it and nothing else is mapped, and an operation has a configuration exactly
when it matches a pattern, that of the first such pattern. -/
structure Consistent (S : Setup N P) (info : Info N P C) : Prop where
  keys : (info.data.map Prod.fst).Nodup
  mapped : ∀ id w, (id, w) ∈ info.data → ∀ n ∈ w, info.map.get (S.name n) = some id
  only : ∀ nm id, info.map.get nm = some id → ∃ w, (id, w) ∈ info.data ∧ ∃ n ∈ w, S.name n = nm
  cfg : ∀ id c, info.cfgs.get id = some c ↔
    ∃ w, (id, w) ∈ info.data ∧ 2 ≤ w.length ∧ FirstCfg S info.patterns w c

/-- The calls that change the records. -/
inductive Call (N : Type) where
  | add (id : Name) (nodes : List N)
  | remove (id : Name)
  | manual (names : List Name)

/-- What a call does; `none` when it raises. -/
def Call.run (S : Setup N P) (info : Info N P C) : Call N → Option (Info N P C)
  | .add id nodes => addOp S info id nodes
  | .remove id => removeOp S info id
  | .manual names => addManual info names

/-- A sequence of calls that do not raise, from one state to another, in which the layers of every added
operation have names that no operation uses at that time. -/
inductive History (S : Setup N P) : Info N P C → List (Call N) → Info N P C → Prop where
  | nil (i) : History S i [] i
  | cons {i j k : Info N P C} {c : Call N} {cs : List (Call N)} :
      c.run S i = some j →
      (∀ id nodes, c = .add id nodes → ∀ n ∈ nodes, ∀ id' w, (id', w) ∈ i.data →
        ∀ m ∈ w, S.name m ≠ S.name n) →
      History S j cs k → History S i (c :: cs) k

/-- The graph accepts the fused operations: their layers exist, each layer but the last of an operation
leads only to the next one, no layer is in two operations, and each operation is one the user listed or
matches a pattern. -/
def Accepted (S : Setup N P) (g : Gr N) (info : Info N P C) : Prop :=
  Apart info.data ∧ ∀ id w, (id, w) ∈ info.data →
    (∀ n ∈ w, n ∈ g.nodes) ∧ OnlyWay g w ∧
      (w.map S.name ∈ info.manual ∨ 2 ≤ w.length ∧ ∃ p ∈ info.patterns, Fits S p.layers w)

end MCT.FusingSpec
