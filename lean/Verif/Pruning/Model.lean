import Mathlib.Algebra.Order.Field.Basic
import Mathlib.Algebra.BigOperators.Group.List.Basic
import Mathlib.Data.List.Perm.Basic
import Mathlib.Data.List.Sort

/-!
# Structured pruning: grouping, the greedy mask search

Models `core/common/pruning/channels_grouping.py`, `mask/per_simd_group_mask.py`,
`mask/per_channel_mask.py`, `greedy_mask_calculator.py` and the scores of
`importance_metrics/lfh_importance_metric.py`.

The prunable nodes are numbered `0 … N-1` in the order of the Python dictionaries; a dictionary keyed by
prunable nodes is a function of the node number.
-/

namespace MCT.Pruning

/-! ### Grouping of channels -/

/-- `_group_node_scores` (channels_grouping.py:66-87).  `sorted` is the result of `np.argsort(-scores)`
(a sort that need not be stable); the groups are consecutive slices of `simd` channels and a last slice
with the remainder.  `none`: division by a zero SIMD size. -/
def groupChannels (sorted : List ℕ) (simd : ℕ) : Option (List (List ℕ)) :=
  if simd = 0 then none
  else
    let full := (List.range (sorted.length / simd)).map fun i => (sorted.drop (i * simd)).take simd
    let rem := sorted.length % simd
    some (if rem ≠ 0 then full ++ [sorted.drop (sorted.length - rem)] else full)

variable {K : Type*}

/-- Score of one channel: `hessian * squared l2 norm / number of parameters`
(lfh_importance_metric.py:154-171). -/
def channelScore [Field K] (hess l2 nparams : ℕ → K) (c : ℕ) : K := hess c * l2 c / nparams c

/-- Score of one group: the three quantities are summed over the group first
(lfh_importance_metric.py:83-96). -/
def groupScore [Field K] (hess l2 nparams : ℕ → K) (g : List ℕ) : K :=
  (g.map hess).sum * (g.map l2).sum / (g.map nparams).sum

/-- `unroll_simd_scores_to_per_channel_scores`, one node (pruning_info.py:80-89): later groups overwrite
earlier ones. -/
def unrollScores [Zero K] (scores : List K) (groups : List (List ℕ)) : List K :=
  (scores.zip groups).foldl (fun acc p => p.2.foldl (fun a i => a.set i p.1) acc)
    (List.replicate (groups.map List.length).sum 0)

/-! ### Masks -/

/-- `PerSIMDGroupMask` with its `PerChannelMask` (per_simd_group_mask.py:28-46, per_channel_mask.py:38-55);
`true` is `REMAINED`. -/
structure Masks where
  simd : ℕ → List Bool
  chan : ℕ → List Bool

/-- `set_mask_value_for_simd_group` (per_simd_group_mask.py:66-87, per_channel_mask.py:64-75). Group and
channel numbers are in range for every call of the code, otherwise numpy would raise. -/
def Masks.set (groups : ℕ → List (List ℕ)) (st : Masks) (node g : ℕ) (v : Bool) : Masks :=
  { simd := fun i => if i = node then (st.simd i).set g v else st.simd i
    chan := fun i => if i = node then
        ((groups node).getD g []).foldl (fun m c => m.set c v) (st.chan i)
      else st.chan i }

/-- `_init_masks` (per_simd_group_mask.py:97-107, per_channel_mask.py:86-96): everything is pruned. -/
def Masks.allPruned (groups : ℕ → List (List ℕ)) (nch : ℕ → ℕ) : Masks :=
  { simd := fun i => List.replicate (groups i).length false
    chan := fun i => List.replicate (nch i) false }

/-- `__init__` (per_simd_group_mask.py:29-46) with `_update_mandatory_mask` (109-118): the first group of
each prunable node remains. -/
def Masks.init (N : ℕ) (groups : ℕ → List (List ℕ)) (nch : ℕ → ℕ) : Masks :=
  (List.range N).foldl (fun st i => st.set groups i 0 true) (Masks.allPruned groups nch)

/-- `has_pruned_channel` (per_channel_mask.py:77-84). -/
def Masks.hasPruned (N : ℕ) (st : Masks) : Bool :=
  (List.range N).any fun i => (st.chan i).any fun b => !b

/-- `int(np.argmax(mask == 0))` (greedy_mask_calculator.py:128): position of the first pruned group, 0 if
there is none. -/
def firstPruned (m : List Bool) : ℕ := (m.findIdx? fun b => !b).getD 0

/-- One step of the loop of `_get_most_sensitive_simd_group_candidate`
(greedy_mask_calculator.py:126-137); the accumulator is (score, node, group). -/
def bestStep [LinearOrder K] (scores : ℕ → ℕ → K) (st : Masks) (best : Option (K × ℕ × ℕ)) (i : ℕ) :
    Option (K × ℕ × ℕ) :=
  let g := firstPruned (st.simd i)
  if g ≠ 0 then
    match best with
    | none => some (scores i g, i, g)
    | some b => if b.1 < scores i g then some (scores i g, i, g) else some b
  else best

/-- `_get_most_sensitive_simd_group_candidate` (greedy_mask_calculator.py:113-141); scores are finite.
`none`: "No prunable SIMD group found" (the caller then fails on the missing node). -/
def bestGroup [LinearOrder K] (N : ℕ) (scores : ℕ → ℕ → K) (st : Masks) : Option (ℕ × ℕ) :=
  ((List.range N).foldl (bestStep scores st) none).map Prod.snd

/-- What can go wrong in `compute_mask`. -/
inductive MaskError
  | insufficient | other
  deriving DecidableEq, Repr

variable {T : Type*} [LinearOrder T]

/-- The while loop (greedy_mask_calculator.py:95-104) with a bound on the number of rounds; the second
component is the last group that was added. `mem` is `get_pruned_graph_memory`. -/
def greedyLoop [LinearOrder K] (N : ℕ) (groups : ℕ → List (List ℕ)) (scores : ℕ → ℕ → K)
    (mem : (ℕ → List Bool) → T) (target : T) :
    ℕ → Masks → Option (ℕ × ℕ) → Option (Masks × Option (ℕ × ℕ))
  | 0, _, _ => none
  | fuel + 1, st, last =>
    if mem st.chan < target ∧ st.hasPruned N = true then
      match bestGroup N scores st with
      | none => none
      | some (i, g) => greedyLoop N groups scores mem target fuel (st.set groups i g true) (some (i, g))
    else some (st, last)

/-- `compute_mask` (greedy_mask_calculator.py:81-111). -/
def computeMask [LinearOrder K] (N : ℕ) (groups : ℕ → List (List ℕ)) (nch : ℕ → ℕ)
    (scores : ℕ → ℕ → K) (mem : (ℕ → List Bool) → T) (target : T) (fuel : ℕ) :
    Except MaskError Masks :=
  let st := Masks.init N groups nch
  if target < mem st.chan then .error .insufficient
  else
    match greedyLoop N groups scores mem target fuel st none with
    | none => .error .other
    | some (st', last) =>
      if target < mem st'.chan then
        match last with
        | none => .error .other
        | some (i, g) => .ok (st'.set groups i g false)
      else .ok st'

end MCT.Pruning
