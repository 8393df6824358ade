/-
The service that computes, caches and serves Hessian scores.

Paths are relative to /repo/model_compression_toolkit/core/common/hessian.
Batches are lists of samples, a data loader is the list of the batches it yields.  The scores of a layer on a
batch have one row per sample of the batch; they are computed by the frameworks with random vectors, so the
calculation `score` also depends on a counter of the calls.
-/
import Mathlib.Data.List.Basic
import Mathlib.Data.List.Dedup
import Mathlib.Order.Basic

namespace MCT.Hessian

set_option linter.unusedVariables false

/-- `HessianMode`, hessian_scores_request.py 26-34. -/
inductive Mode | weights | activation
  deriving DecidableEq
/-- `HessianScoresGranularity`, hessian_scores_request.py 37-46. -/
inductive Gran | perElement | perChannel | perTensor
  deriving DecidableEq

/-- `Query`, hessian_info_service.py 34-39: the key of the cache. -/
structure Query (N : Type) where
  mode : Mode
  gran : Gran
  node : N
  deriving DecidableEq

/-- What the service uses of a node of the graph: its name and the group of layers it reuses. -/
structure HNode (N : Type) where
  name : N
  reuse : Bool
  group : Option ℕ
  deriving DecidableEq

/-- `HessianScoresRequest`, hessian_scores_request.py 49-74 (without `compute_from_tensors`, which is
Verif.Hessian.Collector). -/
structure Req (N S : Type) where
  mode : Mode
  gran : Gran
  targets : List (HNode N)
  loader : Option (List (List S))
  n : Option ℕ

/-- The state of the service: `HessianCache._data`, the number of calculations so far, and (for the
specification only) the record of the calculations: query, counter and batch. -/
structure St (N S V : Type) where
  cache : Query N → Option (List V)
  tick : ℕ
  log : List (Query N × ℕ × List S)

variable {N S V : Type} [DecidableEq N]

/-- A new service, hessian_info_service.py 124-138. -/
def St.empty : St N S V := ⟨fun _ => none, 0, []⟩

/-- `_get_primary_node`, hessian_info_service.py 305-321; `none` is the failed assertion. -/
def primary (nodes : List (HNode N)) (x : HNode N) : Option (HNode N) :=
  if x.reuse = false then some x
  else match nodes.filter (fun y => !y.reuse && y.group == x.group) with
    | [y] => some y
    | _ => none

section
variable (score : ℕ → Query N → List S → List V)

/-- One batch: `_compute_hessian_for_batch` 275-303 followed by `HessianCache.update` 47-75: the rows of every
requested layer are appended to those it has. The scores are a dictionary by layer name, so a layer requested
twice is updated once. -/
def stepBatch (st : St N S V) (m : Mode) (g : Gran) (names : List N) (b : List S) : St N S V where
  cache q := if q.mode = m ∧ q.gran = g ∧ q.node ∈ names then
      some (match st.cache q with
        | none => score st.tick q b
        | some saved => saved ++ score st.tick q b)
    else st.cache q
  tick := st.tick + 1
  log := st.log ++ names.dedup.map (fun x => (⟨m, g, x⟩, st.tick, b))

/-- Number of rows cached for a query. -/
def count (st : St N S V) (q : Query N) : ℕ := match st.cache q with
  | none => 0
  | some rows => rows.length

/-- The value of `HessianCache.update`, hessian_info_service.py 75: the least number of rows among the updated
layers; `none` is the exception of `min` without layers. -/
def minCount (st : St N S V) (m : Mode) (g : Gran) : List N → Option ℕ
  | [] => none
  | [x] => some (count st ⟨m, g, x⟩)
  | x :: xs => (minCount st m g xs).map (min (count st ⟨m, g, x⟩))

/-- The loop over the data loader, hessian_info_service.py 244-253. -/
def computeLoop (m : Mode) (g : Gran) (names : List N) (n : Option ℕ) (byCache : Bool) :
    List (List S) → St N S V → ℕ → List (N → List V) → St N S V × Option (ℕ × List (N → List V))
  | [], st, c, acc => (st, some (c, acc))
  | b :: bs, st, c, acc =>
    let st' := stepBatch score st m g names b
    let acc' := acc ++ [fun x => score st.tick ⟨m, g, x⟩ b]
    match minCount st' m g names with
    | none => (st', none)
    | some mc =>
      let c' := if byCache then mc else c + b.length
      if n.getD 0 ≠ 0 ∧ n.getD 0 ≤ c' then (st', some (c', acc'))
      else computeLoop m g names n byCache bs st' c' acc'

/-- `_compute_hessians`, hessian_info_service.py 217-272; `none` for its exceptions: no data loader, nothing
computed, not enough samples. The cache keeps what was computed before an exception. -/
def compute (m : Mode) (g : Gran) (names : List N) (n : Option ℕ) (byCache : Bool)
    (loader : Option (List (List S))) (st : St N S V) : St N S V × Option (List (N × List V)) :=
  match loader with
  | none => (st, none)
  | some bs =>
    match computeLoop score m g names n byCache bs st 0 [] with
    | (st', none) => (st', none)
    | (st', some (c, acc)) =>
      if acc.isEmpty && !names.isEmpty then (st', none)
      else
        let res := names.map (fun x => (x, acc.flatMap (fun h => h x)))
        if n.getD 0 ≠ 0 then
          if c < n.getD 0 then (st', none)
          else if n.getD 0 < c then (st', some (res.map (fun e => (e.1, e.2.take (n.getD 0)))))
          else (st', some res)
        else (st', some res)

/-- `HessianCache.fetch_hessian`, hessian_info_service.py 77-106: the available rows. -/
def cached (st : St N S V) (m : Mode) (g : Gran) (names : List N) (n : ℕ) : List (N × List V) :=
  names.filterMap (fun x => (st.cache ⟨m, g, x⟩).map (fun rows => (x, rows.take n)))

/-- The layers `HessianCache.fetch_hessian` reports as missing, hessian_info_service.py 95-104. -/
def missing (st : St N S V) (m : Mode) (g : Gran) (names : List N) (n : ℕ) : List N :=
  names.filter (fun x => match st.cache ⟨m, g, x⟩ with
    | none => true
    | some rows => decide (rows.length < n))

/-- The layers to compute, hessian_info_service.py 206-210: the missing ones when some layer has rows. -/
def todo (st : St N S V) (m : Mode) (g : Gran) (names : List N) (n : ℕ) : List N :=
  if (cached st m g names n).isEmpty then names
  else names.filter (fun x => decide (x ∈ missing st m g names n))

/-- `_fetch_hessians_with_compute`, hessian_info_service.py 186-215. -/
def fetchWithCompute (m : Mode) (g : Gran) (names : List N) (n : ℕ) (loader : Option (List (List S)))
    (st : St N S V) : St N S V × Option (List (N × List V)) :=
  if (missing st m g names n).isEmpty then (st, some (cached st m g names n))
  else if loader.isNone then (st, none)
  else
    match compute score m g (todo st m g names n) (some n) true loader st with
    | (st', none) => (st', none)
    | (st', some _) =>
      if (missing st' m g names n).isEmpty then (st', some (cached st' m g names n)) else (st', none)

/-- Dictionary lookup in the list of pairs the functions above return. -/
def look (d : List (N × List V)) (x : N) : Option (List V) := (d.find? (fun e => e.1 = x)).map (·.2)

/-- `force_compute` or the cache, hessian_info_service.py 172-175. -/
def answer (m : Mode) (g : Gran) (names : List N) (force : Bool) (n : Option ℕ)
    (loader : Option (List (List S))) (st : St N S V) : St N S V × Option (List (N × List V)) :=
  if force then compute score m g names n false loader st
  else fetchWithCompute score m g names (n.getD 0) loader st

/-- The answer under the names of the original request, hessian_info_service.py 177-178. -/
def restoreNames (targets prims : List (HNode N)) (res : List (N × List V)) : Option (List (N × List V)) :=
  (List.zip targets prims).mapM (fun p => (look res p.2.name).map (fun rows => (p.1.name, rows)))

/-- `fetch_hessian`, hessian_info_service.py 140-180, without `compute_from_tensors`, with the check of the
request, hessian_scores_request.py 76-78. -/
def fetch (nodes : List (HNode N)) (force : Bool) (r : Req N S) (st : St N S V) :
    St N S V × Option (List (N × List V)) :=
  if r.loader.isNone && r.n.isNone then (st, none)
  else if r.n.isNone && !force then (st, none)
  else match r.targets.mapM (primary nodes) with
    | none => (st, none)
    | some prims =>
      match answer score r.mode r.gran (prims.map (·.name)) force r.n r.loader st with
      | (st', none) => (st', none)
      | (st', some res) =>
        (st', restoreNames r.targets prims res)

/-! ### Histories -/

/-- The calls a user of the service makes. -/
inductive Op (N S : Type)
  | fetch (force : Bool) (r : Req N S)
  | clear

/-- `fetch_hessian` and `clear_cache`, hessian_info_service.py 140-184. An exception leaves the state it
reached. -/
def stepOp (nodes : List (HNode N)) (st : St N S V) : Op N S → St N S V
  | .fetch force r => (fetch score nodes force r st).1
  | .clear => { st with cache := fun _ => none, log := [] }

/-- A history of calls. -/
def run (nodes : List (HNode N)) (st : St N S V) (ops : List (Op N S)) : St N S V :=
  ops.foldl (stepOp score nodes) st

end

end MCT.Hessian
