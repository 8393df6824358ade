/-
Which statistics a layer is given for its inputs.

Sources (all under /repo/model_compression_toolkit):
  core/common/graph/base_graph.py 182-295                      set_out_stats_collector_to_node,
                                                               get_out/get_in_stats_collector,
                                                               shift_stats_collector
  core/common/model_collector.py 55-75, 158-171                the calls made before the inference
  core/common/substitutions/shift_negative_activation.py       386-393, 410-431, 438-445: the calls
                                                               made by shift negative correction
  core/common/statistics_correction/compute_bias_correction_of_graph.py 44-58   who reads them

A collector is a value of an arbitrary type `S`: the graph only stores and hands out collectors.
-/
import Mathlib.Data.List.Sort
import Mathlib.Data.List.Nodup
import Mathlib.Data.Real.Basic
import Mathlib.Logic.Function.Iterate
import Mathlib.Algebra.BigOperators.Group.List.Basic
import Mathlib.Tactic.FieldSimp
import Mathlib.Tactic.Ring
import Mathlib.Tactic.Linarith
import Mathlib.Tactic.IntervalCases
import Verif.Graph.Model

namespace MCT.Attach

open MCT.Graph (Gr Edge outEdges inEdges)

set_option linter.unusedSectionVars false
set_option linter.unusedVariables false

variable {N : Type*} [DecidableEq N] {S : Type*}

/-! ## Model -/

/-- An entry of `node_to_out_stats_collector`: a collector, or a list of them for a layer with
several outputs.  base_graph.py 207-208, 211. -/
inductive OutS (S : Type*) where
  | one (s : S)
  | many (l : List S)

/-- An entry of `node_to_in_stats_collector`: a collector, or a list of collectors and `None`s for
a layer with several inputs.  base_graph.py 198-206. -/
inductive InS (S : Type*) where
  | one (s : S)
  | many (l : List (Option S))

/-- The two dictionaries of the graph.  base_graph.py 72-73. -/
structure St (N S : Type*) where
  out : N → Option (OutS S)
  ins : N → Option (InS S)

/-- A graph no collector has been given to yet.  base_graph.py 72-73. -/
def St.empty : St N S := ⟨fun _ => none, fun _ => none⟩

/-- `incoming_edges(m, sort_by_attr=EDGE_SINK_INDEX)`: a stable sort.  base_graph.py 496-515. -/
def sortedIn (g : Gr N) (m : N) : List (Edge N) :=
  (inEdges g m).insertionSort (fun a b => a.di ≤ b.di)

/-- `out_edges(n, sort_by_attr=EDGE_SOURCE_INDEX)`: a stable sort.  base_graph.py 517-535.
networkx lists the edges of a node grouped by neighbour, here they are in the order they were
added: this is the order among the edges of one and the same output only. -/
def sortedOut (g : Gr N) (n : N) : List (Edge N) :=
  (outEdges g n).insertionSort (fun a b => a.si ≤ b.si)

/-- `in_nodes`.  base_graph.py 200-201, 213-214. -/
def inNodes (g : Gr N) (m : N) : List N := (sortedIn g m).map Edge.src

/-- Dictionary update. -/
def upd {V : Type*} (f : N → Option V) (k : N) (v : V) : N → Option V :=
  fun x => if x = k then some v else f x

/-- `self.node_to_in_stats_collector[oe.sink_node][in_nodes.index(n)] = sc`, with `none` for an
exception: item assignment on a collector, or an index out of range.  base_graph.py 206, 219. -/
def place (cur : InS S) (i : Nat) (s : S) : Option (InS S) :=
  match cur with
  | .one _ => none
  | .many l => if i < l.length then some (.many (l.set i (some s))) else none

/-- The list of the sink, made of `None`s on the first visit.  base_graph.py 204-206, 217-219. -/
def current (ins : N → Option (InS S)) (m : N) (len : Nat) : InS S :=
  match ins m with
  | none => .many (List.replicate len none)
  | some x => x

/-- The body of both loops over the outgoing edges.  base_graph.py 200-209 and 213-222. -/
def attach (g : Gr N) (n : N) (ins : N → Option (InS S)) (p : S × Edge N) :
    Option (N → Option (InS S)) :=
  if (inNodes g p.2.dst).length ≠ 1 then
    (place (current ins p.2.dst (inNodes g p.2.dst).length) ((inNodes g p.2.dst).idxOf n) p.1).map
      (fun v => upd ins p.2.dst v)
  else some (upd ins p.2.dst (.one p.1))

/-- `set_out_stats_collector_to_node(n, sc)`; `nOut` is the number of outputs read from the shape of
the layer and `c i` the i-th copy of the collector that was passed (only `c 0` for a layer with one
output).  base_graph.py 182-222. -/
def setOut (g : Gr N) (nOut : N → Nat) (n : N) (c : Nat → S) (st : St N S) : Option (St N S) :=
  if nOut n ≠ 1 then
    (List.foldlM (attach g n) st.ins (((List.range (nOut n)).map c).zip (sortedOut g n))).map
      (fun ins => ⟨upd st.out n (.many ((List.range (nOut n)).map c)), ins⟩)
  else
    (List.foldlM (attach g n) st.ins ((outEdges g n).map (fun e => (c 0, e)))).map
      (fun ins => ⟨upd st.out n (.one (c 0)), ins⟩)

/-- A sequence of calls: those of the model collector (model_collector.py 158-171, including the
collectors forced upon the inputs of linear layers, 55-75) and any later ones. -/
def run (g : Gr N) (nOut : N → Nat) (calls : List (N × (Nat → S))) (st : St N S) :
    Option (St N S) :=
  calls.foldlM (fun st p => setOut g nOut p.1 p.2 st) st

/-- The collector of a layer with one output.  base_graph.py 224-234. -/
def outOne (st : St N S) (n : N) : Option S :=
  (st.out n).bind (fun o => match o with | .one s => some s | .many _ => none)

/-- `shift_stats_collector(n, v)`: a shifted copy of the output statistics is set; the statistics
of a layer with several outputs are a list, which cannot be shifted.  base_graph.py 277-295. -/
def shiftOut (g : Gr N) (nOut : N → Nat) (f : S → S) (n : N) (st : St N S) : Option (St N S) :=
  (outOne st n).bind (fun s => setOut g nOut n (fun _ => f s) st)

/-- One call of `shift_stats_collector` per candidate of a bypassed layer.
shift_negative_activation.py 438-445. -/
def shiftTimes (g : Gr N) (nOut : N → Nat) (f : S → S) (n : N) : Nat → St N S → Option (St N S)
  | 0, st => some st
  | k + 1, st => (shiftOut g nOut f n st).bind (shiftTimes g nOut f n k)

/-- What shift negative correction does with the statistics: `g₁` is the graph with the added layer
in it, `g₂` the graph with the padding layer as well (the same graph when none is added), `f` the
shift and `bypass` the bypassed layers with their numbers of candidates that quantize activations.
shift_negative_activation.py 386-393, 410-431, 438-445. -/
def snc (g₁ g₂ : Gr N) (nOut : N → Nat) (f : S → S) (nl add : N) (pad : Option N)
    (bypass : List (N × Nat)) (st : St N S) : Option (St N S) :=
  (outOne st nl).bind (fun s =>
    (setOut g₁ nOut add (fun _ => s) st).bind (fun st =>
    (shiftOut g₁ nOut f add st).bind (fun st =>
    (sncPad g₂ nOut s pad st).bind (fun st =>
      bypass.foldlM (fun st p => shiftTimes g₂ nOut f p.1 p.2 st) st))))
where
  /-- The padding layer is given the copy made before the shift.
  shift_negative_activation.py 410-431. -/
  sncPad (g₂ : Gr N) (nOut : N → Nat) (s : S) (pad : Option N) (st : St N S) : Option (St N S) :=
    match pad with
    | none => some st
    | some p => setOut g₂ nOut p (fun _ => s) st

/-! ## Specification -/

/-- The statistics held for output `i` of a layer. -/
def readOut (st : St N S) (n : N) (i : Nat) : Option S :=
  match st.out n with
  | none => none
  | some (.one s) => if i = 0 then some s else none
  | some (.many l) => l[i]?

/-- The statistics held for the input in place `j` of a layer. -/
def readIn (st : St N S) (m : N) (j : Nat) : Option S :=
  match st.ins m with
  | none => none
  | some (.one s) => if j = 0 then some s else none
  | some (.many l) => l.getD j none

/-- The place of an edge among the inputs of its sink: how many of them have a smaller index. -/
def inputPlace (g : Gr N) (e : Edge N) : Nat :=
  (g.edges.filter (fun x => decide (x.dst = e.dst ∧ x.di < e.di))).length

/-- No layer takes two tensors from one layer, the inputs of a layer have different indices, a layer
with one output only has edges of this output, and the outputs of a layer with several outputs are
each used once, up to the last one used. -/
structure Plain (g : Gr N) (nOut : N → Nat) : Prop where
  once : ∀ m, ((inEdges g m).map Edge.src).Nodup
  slots : ∀ m, ((inEdges g m).map Edge.di).Nodup
  single : ∀ e ∈ g.edges, nOut e.src = 1 → e.si = 0
  split : ∀ n, nOut n ≠ 1 → ((outEdges g n).map Edge.si).Perm (List.range (outEdges g n).length) ∧
    (outEdges g n).length ≤ nOut n

/-! ## Proofs -/

/-- Entries have the shape the number of inputs asks for. -/
def Shape (g : Gr N) (ins : N → Option (InS S)) : Prop :=
  ∀ m, match ins m with
    | none => True
    | some (.one _) => (inNodes g m).length = 1
    | some (.many l) => (inNodes g m).length ≠ 1 ∧ l.length = (inNodes g m).length

def rd (ins : N → Option (InS S)) (m : N) (j : Nat) : Option S := readIn ⟨fun _ => none, ins⟩ m j

theorem rd_eq (st : St N S) (m : N) (j : Nat) : readIn st m j = rd st.ins m j := rfl

theorem mem_sortedIn {g : Gr N} {m : N} {e : Edge N} : e ∈ sortedIn g m ↔ e ∈ g.edges ∧ e.dst = m := by
  unfold sortedIn
  rw [List.mem_insertionSort]
  simp [inEdges]

theorem mem_sortedOut {g : Gr N} {n : N} {e : Edge N} :
    e ∈ sortedOut g n ↔ e ∈ g.edges ∧ e.src = n := by
  unfold sortedOut
  rw [List.mem_insertionSort]
  simp [outEdges]

theorem mem_inNodes {g : Gr N} {n : N} {e : Edge N} (h : e ∈ g.edges) (hs : e.src = n) :
    n ∈ inNodes g e.dst := by
  unfold inNodes
  exact List.mem_map.mpr ⟨e, mem_sortedIn.mpr ⟨h, rfl⟩, hs⟩

theorem attach_spec {g : Gr N} {n : N} {ins : N → Option (InS S)} (hsh : Shape g ins)
    {p : S × Edge N} (he : p.2 ∈ g.edges) (hs : p.2.src = n) :
    ∃ ins', attach g n ins p = some ins' ∧ Shape g ins' ∧
      ∀ m j, rd ins' m j =
        if m = p.2.dst ∧ j = (inNodes g p.2.dst).idxOf n then some p.1 else rd ins m j := by
  have hmem := mem_inNodes he hs
  have hidx : (inNodes g p.2.dst).idxOf n < (inNodes g p.2.dst).length :=
    List.idxOf_lt_length_of_mem hmem
  unfold attach
  by_cases hl : (inNodes g p.2.dst).length ≠ 1
  · rw [if_pos hl]
    have hcur : ∃ l, current ins p.2.dst (inNodes g p.2.dst).length = .many l ∧
        l.length = (inNodes g p.2.dst).length ∧ ∀ j, rd ins p.2.dst j = l.getD j none := by
      have h0 := hsh p.2.dst
      unfold current rd readIn
      cases hc : ins p.2.dst with
      | none =>
        refine ⟨_, rfl, by simp, ?_⟩
        intro j
        simp [hc, List.getD, List.getElem?_replicate]
        split <;> rfl
      | some x =>
        rw [hc] at h0
        cases x with
        | one s => exact absurd h0 hl
        | many l => exact ⟨l, rfl, h0.2, fun j => by simp [hc]⟩
    obtain ⟨l, hcl, hll, hr⟩ := hcur
    rw [hcl]
    unfold place
    dsimp only
    rw [if_pos (by omega)]
    refine ⟨_, rfl, ?_, ?_⟩
    · intro m
      by_cases hm : m = p.2.dst
      · subst hm
        simp only [upd, if_true]
        exact ⟨hl, by simp [hll]⟩
      · have := hsh m
        simp only [upd, if_neg hm]
        exact this
    · intro m j
      by_cases hm : m = p.2.dst
      · subst hm
        rw [hr j]
        simp only [rd, readIn, upd, if_true, true_and]
        by_cases hj : j = (inNodes g p.2.dst).idxOf n
        · subst hj
          rw [if_pos rfl]
          simp [List.getD, hll, hidx]
        · rw [if_neg hj]
          simp [List.getD, List.getElem?_set, Ne.symm hj]
      · rw [if_neg (by tauto)]
        simp [rd, readIn, upd, hm]
  · push Not at hl
    rw [if_neg (by simpa using hl)]
    refine ⟨_, rfl, ?_, ?_⟩
    · intro m
      by_cases hm : m = p.2.dst
      · subst hm
        simp only [upd, if_true]
        exact hl
      · have := hsh m
        simp only [upd, if_neg hm]
        exact this
    · intro m j
      have h0 : (inNodes g p.2.dst).idxOf n = 0 := by omega
      rw [h0]
      by_cases hm : m = p.2.dst
      · subst hm
        by_cases hj : j = 0
        · subst hj; simp [rd, readIn, upd]
        · rw [if_neg (by tauto)]
          have h1 := hsh p.2.dst
          simp only [rd, readIn, upd, if_true, if_neg hj]
          cases hc : ins p.2.dst with
          | none => rfl
          | some x =>
            rw [hc] at h1
            cases x with
            | one s => simp [hj]
            | many l => exact absurd hl h1.1
      · rw [if_neg (by tauto)]
        simp [rd, readIn, upd, hm]

/-- A loop over the edges of `n`. -/
theorem loop_spec {g : Gr N} {n : N} : ∀ (L : List (S × Edge N)) {ins : N → Option (InS S)},
    Shape g ins → (∀ p ∈ L, p.2 ∈ g.edges ∧ p.2.src = n) →
    ∃ ins', List.foldlM (attach g n) ins L = some ins' ∧ Shape g ins' ∧
      (∀ m j, (∀ p ∈ L, ¬ (m = p.2.dst ∧ j = (inNodes g m).idxOf n)) → rd ins' m j = rd ins m j) ∧
      ((L.map (fun p => p.2.dst)).Nodup → ∀ p ∈ L,
        rd ins' p.2.dst ((inNodes g p.2.dst).idxOf n) = some p.1)
  | [], ins, hsh, _ => ⟨ins, rfl, hsh, fun _ _ _ => rfl, by simp⟩
  | p :: L, ins, hsh, hL => by
    obtain ⟨i1, h1, hs1, hr1⟩ := attach_spec hsh (hL p (by simp)).1 (hL p (by simp)).2
    obtain ⟨i2, h2, hs2, hk, hv⟩ := loop_spec L hs1 (fun q hq => hL q (by simp [hq]))
    refine ⟨i2, ?_, hs2, ?_, ?_⟩
    · rw [List.foldlM_cons, h1]; exact h2
    · intro m j hn
      rw [hk m j (fun q hq => hn q (by simp [hq])), hr1, if_neg]
      intro hc
      refine hn p (by simp) ⟨hc.1, ?_⟩
      rw [hc.1]; exact hc.2
    · intro hnd q hq
      simp only [List.map_cons, List.nodup_cons] at hnd
      rcases List.mem_cons.mp hq with rfl | hq
      · rw [hk, hr1, if_pos ⟨rfl, rfl⟩]
        intro r hr hc
        exact hnd.1 (List.mem_map.mpr ⟨r, hr, hc.1.symm⟩)
      · exact hv hnd.2 q hq

theorem idxOf_sorted {g : Gr N} {nOut : N → Nat} (hp : Plain g nOut) {m : N} {j : Nat} {e : Edge N}
    (h : (sortedIn g m)[j]? = some e) : (inNodes g m).idxOf e.src = j := by
  have hnd : (inNodes g m).Nodup := by
    unfold inNodes sortedIn
    exact ((List.perm_insertionSort _ _).map _).nodup_iff.mpr (hp.once m)
  have hj : (inNodes g m)[j]? = some e.src := by
    unfold inNodes
    rw [List.getElem?_map, h]; rfl
  obtain ⟨hlt, hg⟩ := List.getElem?_eq_some_iff.mp hj
  rw [← hg]
  exact List.Nodup.idxOf_getElem hnd j hlt

theorem dst_nodup {g : Gr N} {nOut : N → Nat} (hp : Plain g nOut) (n : N) :
    ((outEdges g n).map Edge.dst).Nodup := by
  rw [List.nodup_iff_count_le_one]
  intro m
  have h := List.nodup_iff_count_le_one.mp (hp.once m) n
  have e1 : List.count m ((outEdges g n).map Edge.dst)
      = (g.edges.filter (fun e => decide (e.dst = m) && decide (e.src = n))).length := by
    unfold outEdges
    rw [List.count, List.countP_map, List.countP_filter, List.countP_eq_length_filter]
    congr 1
  have e2 : List.count n ((inEdges g m).map Edge.src)
      = (g.edges.filter (fun e => decide (e.dst = m) && decide (e.src = n))).length := by
    unfold inEdges
    rw [List.count, List.countP_map, List.countP_filter, List.countP_eq_length_filter]
    congr 1
    apply List.filter_congr
    intro x _
    simp [Bool.and_comm]
    rfl
  omega

/-- Every input shows what the output feeding it shows. -/
def Agree (g : Gr N) (st : St N S) : Prop :=
  ∀ m j e, (sortedIn g m)[j]? = some e → readIn st m j = readOut st e.src e.si

theorem sortedOut_range {g : Gr N} {n : N}
    (h : ((outEdges g n).map Edge.si).Perm (List.range (outEdges g n).length)) :
    (sortedOut g n).map Edge.si = List.range (outEdges g n).length := by
  have hso : ((sortedOut g n).map Edge.si).Pairwise (· ≤ ·) := by
    rw [List.pairwise_map]
    unfold sortedOut
    haveI : Std.Total (fun a b : Edge N => a.si ≤ b.si) := ⟨fun a b => Nat.le_total a.si b.si⟩
    haveI : IsTrans (Edge N) (fun a b => a.si ≤ b.si) := ⟨fun a b c h1 h2 => le_trans h1 h2⟩
    exact List.pairwise_insertionSort _ _
  have hr : (List.range (outEdges g n).length).Pairwise (· ≤ ·) :=
    List.pairwise_le_range
  refine List.Perm.eq_of_pairwise' hso hr (List.Perm.trans ?_ h)
  unfold sortedOut
  exact (List.perm_insertionSort _ _).map _

theorem count_below : ∀ (l : List (Edge N)), l.Pairwise (fun a b => a.di < b.di) →
    ∀ j e, l[j]? = some e → l.countP (fun x => decide (x.di < e.di)) = j
  | [], _, j, e, h => by simp at h
  | a :: l, hp, j, e, h => by
    rw [List.pairwise_cons] at hp
    cases j with
    | zero =>
      simp only [List.getElem?_cons_zero, Option.some.injEq] at h
      subst h
      rw [List.countP_eq_zero]
      intro x hx
      rcases List.mem_cons.mp hx with rfl | hx
      · simp
      · have := hp.1 x hx
        simp; omega
    | succ j =>
      simp only [List.getElem?_cons_succ] at h
      have ha := hp.1 e (List.mem_of_getElem? h)
      rw [List.countP_cons_of_pos (by simpa using ha), count_below l hp.2 j e h]

theorem inputPlace_sorted {g : Gr N} {nOut : N → Nat} (hp : Plain g nOut) {e : Edge N}
    (he : e ∈ g.edges) : (sortedIn g e.dst)[inputPlace g e]? = some e := by
  obtain ⟨j, hj⟩ := List.mem_iff_getElem?.mp (mem_sortedIn.mpr ⟨he, rfl⟩)
  have hle : (sortedIn g e.dst).Pairwise (fun a b => a.di ≤ b.di) := by
    unfold sortedIn
    haveI : Std.Total (fun a b : Edge N => a.di ≤ b.di) := ⟨fun a b => Nat.le_total a.di b.di⟩
    haveI : IsTrans (Edge N) (fun a b => a.di ≤ b.di) := ⟨fun a b c h1 h2 => le_trans h1 h2⟩
    exact List.pairwise_insertionSort _ _
  have hnd : (sortedIn g e.dst).Pairwise (fun a b => a.di ≠ b.di) := by
    have : ((sortedIn g e.dst).map Edge.di).Nodup := by
      unfold sortedIn
      exact ((List.perm_insertionSort _ _).map _).nodup_iff.mpr (hp.slots e.dst)
    exact List.pairwise_map.mp this
  have hlt : (sortedIn g e.dst).Pairwise (fun a b => a.di < b.di) :=
    (hle.and hnd).imp (fun h => lt_of_le_of_ne h.1 h.2)
  have hc := count_below _ hlt j e hj
  have hpl : inputPlace g e = j := by
    rw [← hc]
    unfold sortedIn
    rw [(List.perm_insertionSort _ _).countP_eq]
    unfold inputPlace inEdges
    rw [List.countP_filter, List.countP_eq_length_filter]
    congr 1
    apply List.filter_congr
    intro x _
    simp [Bool.and_comm, Bool.decide_and]
  rw [hpl]
  exact hj

theorem setOut_spec {g : Gr N} {nOut : N → Nat} (hp : Plain g nOut) {st : St N S}
    (hsh : Shape g st.ins) (ha : Agree g st) (n : N) (c : Nat → S) :
    ∃ st', setOut g nOut n c st = some st' ∧ Shape g st'.ins ∧ Agree g st' := by
  -- a common argument for both loops
  have key : ∀ (L : List (S × Edge N)) (o : OutS S),
      (∀ p ∈ L, p.2 ∈ g.edges ∧ p.2.src = n) →
      (L.map (fun p => p.2.dst)).Nodup →
      (∀ e ∈ g.edges, e.src = n → ∃ p ∈ L, p.2 = e ∧
        readOut (⟨upd st.out n o, st.ins⟩ : St N S) n e.si = some p.1) →
      ∃ st', (List.foldlM (attach g n) st.ins L).map
          (fun ins => (⟨upd st.out n o, ins⟩ : St N S)) = some st' ∧ Shape g st'.ins ∧
        Agree g st' := by
    intro L o hL hnd hall
    obtain ⟨i2, h2, hs2, hk, hv⟩ := loop_spec L hsh hL
    rw [h2]
    refine ⟨_, rfl, hs2, ?_⟩
    intro m j e he
    have hem := mem_sortedIn.mp (List.mem_of_getElem? he)
    have hix := idxOf_sorted hp he
    by_cases hn : e.src = n
    · obtain ⟨p, hpL, hpe, hro⟩ := hall e hem.1 hn
      have := hv hnd p hpL
      rw [hpe, hem.2, ← hn, hix] at this
      rw [rd_eq]
      show rd i2 m j = _
      rw [this, ← hro, hn]
      rfl
    · have hro : readOut (⟨upd st.out n o, i2⟩ : St N S) e.src e.si = readOut st e.src e.si := by
        simp [readOut, upd, hn]
      rw [hro, ← ha m j e he, rd_eq, rd_eq]
      apply hk
      intro p hpL hc
      apply hn
      have hmem := mem_inNodes (hL p hpL).1 (hL p hpL).2
      rw [← hc.1] at hmem
      have hj : (inNodes g m)[j]? = some e.src := by
        unfold inNodes
        rw [List.getElem?_map, he]; rfl
      rw [hc.2, List.getElem?_idxOf hmem] at hj
      exact (Option.some.inj hj).symm
  unfold setOut
  by_cases ho : nOut n ≠ 1
  · rw [if_pos ho]
    obtain ⟨hperm, hle⟩ := hp.split n ho
    have hsi := sortedOut_range hperm
    have hlen : (sortedOut g n).length = (outEdges g n).length := by
      unfold sortedOut; exact List.length_insertionSort _ _
    apply key
    · intro p hpm
      exact mem_sortedOut.mp (List.of_mem_zip (show (p.1, p.2) ∈ _ from hpm)).2
    · have : (((List.range (nOut n)).map c).zip (sortedOut g n)).map (fun p => p.2.dst)
          = (sortedOut g n).map Edge.dst := by
        rw [show (fun p : S × Edge N => p.2.dst) = Edge.dst ∘ Prod.snd from rfl, ← List.map_map,
          List.map_snd_zip (by simp; omega)]
      rw [this]
      unfold sortedOut
      exact ((List.perm_insertionSort _ _).map _).nodup_iff.mpr (dst_nodup hp n)
    · intro e he hs
      obtain ⟨i, hi, hie⟩ := List.getElem_of_mem (mem_sortedOut.mpr ⟨he, hs⟩)
      have hsi' : e.si = i := by
        have : ((sortedOut g n).map Edge.si)[i]? = some e.si := by
          rw [List.getElem?_map, List.getElem?_eq_getElem hi, hie]; rfl
        rw [hsi, List.getElem?_range (by omega)] at this
        exact (Option.some.inj this).symm
      refine ⟨(c i, e), ?_, rfl, ?_⟩
      · rw [List.mem_iff_getElem?]
        refine ⟨i, ?_⟩
        rw [List.getElem?_zip_eq_some]
        refine ⟨?_, ?_⟩
        · rw [List.getElem?_map, List.getElem?_range (by omega)]; rfl
        · rw [List.getElem?_eq_getElem hi, hie]
      · have hin : i < nOut n := by omega
        simp [readOut, upd, hsi', hin]
  · push Not at ho
    rw [if_neg (by simpa using ho)]
    apply key
    · intro p hpm
      obtain ⟨e, he, rfl⟩ := List.mem_map.mp hpm
      simpa [outEdges] using he
    · rw [List.map_map]
      exact dst_nodup hp n
    · intro e he hs
      refine ⟨(c 0, e), List.mem_map.mpr ⟨e, by simp [outEdges, he, hs], rfl⟩, rfl, ?_⟩
      have := hp.single e he (by rw [hs]; exact ho)
      simp [readOut, upd, this]

theorem run_spec {g : Gr N} {nOut : N → Nat} (hp : Plain g nOut) :
    ∀ (calls : List (N × (Nat → S))) {st : St N S}, Shape g st.ins → Agree g st →
    ∃ st', run g nOut calls st = some st' ∧ Shape g st'.ins ∧ Agree g st'
  | [], st, h1, h2 => ⟨st, rfl, h1, h2⟩
  | p :: calls, st, h1, h2 => by
    obtain ⟨s1, e1, a1, b1⟩ := setOut_spec hp h1 h2 p.1 p.2
    obtain ⟨s2, e2, a2, b2⟩ := run_spec hp calls a1 b1
    refine ⟨s2, ?_, a2, b2⟩
    unfold run at e2 ⊢
    rw [List.foldlM_cons, e1]
    exact e2

/-- C154 (part): when no layer takes two tensors from one layer and the outputs of layers with
several outputs are each used once, then whatever collectors are given to the layers, in
whatever order and however often, no call fails, and each input of each layer shows exactly the
statistics of the output that feeds it. -/
theorem C154_inputs_partial {g : Gr N} {nOut : N → Nat} (hp : Plain g nOut)
    (calls : List (N × (Nat → S))) :
    ∃ st, run g nOut calls St.empty = some st ∧
      ∀ e ∈ g.edges, readIn st e.dst (inputPlace g e) = readOut st e.src e.si := by
  obtain ⟨st, h, _, ha⟩ := run_spec hp calls (st := St.empty) (fun m => by simp [St.empty])
    (fun m j e _ => by simp [readIn, readOut, St.empty])
  exact ⟨st, h, fun e he => ha e.dst _ e (inputPlace_sorted hp he)⟩

/-- The statistics of an output are those of the last call for its layer. -/
theorem C154_outputs {g : Gr N} {nOut : N → Nat} {n : N} {c : Nat → S} {st st' : St N S}
    (h : setOut g nOut n c st = some st') :
    (∀ i, i < nOut n → readOut st' n i = some (c i)) ∧
      (∀ m i, m ≠ n → readOut st' m i = readOut st m i) := by
  unfold setOut at h
  split at h <;> rename_i ho
  · obtain ⟨ins, _, rfl⟩ := Option.map_eq_some_iff.mp h
    refine ⟨fun i hi => ?_, fun m i hm => ?_⟩
    · simp [readOut, upd, hi]
    · simp [readOut, upd, hm]
  · push Not at ho
    obtain ⟨ins, _, rfl⟩ := Option.map_eq_some_iff.mp h
    refine ⟨fun i hi => ?_, fun m i hm => ?_⟩
    · have : i = 0 := by omega
      simp [readOut, upd, this]
    · simp [readOut, upd, hm]

theorem setOut_shape {g : Gr N} {nOut : N → Nat} {st : St N S} (hsh : Shape g st.ins) (n : N)
    (c : Nat → S) :
    ∃ st', setOut g nOut n c st = some st' ∧ Shape g st'.ins ∧
      ∀ m j, j ≠ (inNodes g m).idxOf n → readIn st' m j = readIn st m j := by
  have key : ∀ (L : List (S × Edge N)) (o : OutS S),
      (∀ p ∈ L, p.2 ∈ g.edges ∧ p.2.src = n) →
      ∃ st', (List.foldlM (attach g n) st.ins L).map
          (fun ins => (⟨upd st.out n o, ins⟩ : St N S)) = some st' ∧ Shape g st'.ins ∧
        ∀ m j, j ≠ (inNodes g m).idxOf n → readIn st' m j = readIn st m j := by
    intro L o hL
    obtain ⟨i2, h2, hs2, hk, _⟩ := loop_spec L hsh hL
    rw [h2]
    exact ⟨_, rfl, hs2, fun m j hj => hk m j (fun p _ hc => hj hc.2)⟩
  unfold setOut
  by_cases ho : nOut n ≠ 1
  · rw [if_pos ho]
    apply key
    intro p hpm
    exact mem_sortedOut.mp (List.of_mem_zip (show (p.1, p.2) ∈ _ from hpm)).2
  · rw [if_neg ho]
    apply key
    intro p hpm
    obtain ⟨e, he, rfl⟩ := List.mem_map.mp hpm
    simpa [outEdges] using he

/-- C154, violated: a layer that takes two tensors from one and the same layer is never given
statistics for the second of them, whatever calls are made, in whatever order. -/
theorem C154_repeated_violated {g : Gr N} {nOut : N → Nat} {m n : N} {i j : Nat} (hij : i < j)
    (hi : (inNodes g m)[i]? = some n) (hj : (inNodes g m)[j]? = some n)
    (calls : List (N × (Nat → S))) :
    ∃ st, run g nOut calls St.empty = some st ∧ readIn st m j = none := by
  have never : ∀ x, j ≠ (inNodes g m).idxOf x := by
    intro x hx
    obtain ⟨hjl, hjg⟩ := List.getElem?_eq_some_iff.mp hj
    obtain ⟨hil, hig⟩ := List.getElem?_eq_some_iff.mp hi
    have hxm : x ∈ inNodes g m := by
      rw [← List.idxOf_lt_length_iff, ← hx]; exact hjl
    have hxn : x = n := by
      have := List.getElem?_idxOf hxm
      rw [← hx, hj] at this
      exact (Option.some.inj this).symm
    subst hxn
    have hlt : i < (inNodes g m).idxOf x := by omega
    have := List.not_of_lt_findIdx (p := (· == x)) (xs := inNodes g m) (i := i)
      (by simpa [List.idxOf] using hlt)
    simp [hig] at this
  have gen : ∀ (calls : List (N × (Nat → S))) (st : St N S), Shape g st.ins →
      readIn st m j = none → ∃ st', run g nOut calls st = some st' ∧ readIn st' m j = none := by
    intro calls
    induction calls with
    | nil => intro st _ h; exact ⟨st, rfl, h⟩
    | cons p calls ih =>
      intro st hsh h
      obtain ⟨s1, e1, a1, b1⟩ := setOut_shape (nOut := nOut) hsh p.1 p.2
      obtain ⟨s2, e2, b2⟩ := ih s1 a1 (by rw [b1 m j (never p.1), h])
      refine ⟨s2, ?_, b2⟩
      unfold run at e2 ⊢
      rw [List.foldlM_cons, e1]
      exact e2
  exact gen calls St.empty (fun m => by simp [St.empty]) (by simp [readIn, St.empty])

/-- A layer with the one incoming edge `e`. -/
theorem attach_single {g : Gr N} {n : N} {ins : N → Option (InS S)} {p : S × Edge N}
    (h : (inNodes g p.2.dst).length = 1) : attach g n ins p = some (upd ins p.2.dst (.one p.1)) := by
  unfold attach
  rw [if_neg (by simpa using h)]

/-- C154, violated: a layer with two outputs, the first used by two layers `a` and `b` and the
second by `d`, all with one input: `b` is given the statistics of the second output although it
takes the first, and `d` is given none. -/
theorem C154_split_violated {g : Gr N} {nOut : N → Nat} {n : N} {a b d : Edge N}
    (hn : nOut n = 2) (hout : sortedOut g n = [a, b, d]) (hb : b.si = 0) (hd : d.si = 1)
    (hab : a.dst ≠ b.dst) (had : a.dst ≠ d.dst) (hbd : b.dst ≠ d.dst)
    (ha1 : (sortedIn g a.dst).length = 1) (hb1 : (sortedIn g b.dst).length = 1)
    (c : Nat → S) :
    ∃ st, setOut g nOut n c St.empty = some st ∧
      readOut st n 0 = some (c 0) ∧ readOut st n 1 = some (c 1) ∧
      readIn st b.dst 0 = some (c 1) ∧ st.ins d.dst = none := by
  have ha1' : (inNodes g a.dst).length = 1 := by simpa [inNodes] using ha1
  have hb1' : (inNodes g b.dst).length = 1 := by simpa [inNodes] using hb1
  have hz : ((List.range (nOut n)).map c).zip (sortedOut g n) = [(c 0, a), (c 1, b)] := by
    rw [hn, hout]; rfl
  refine ⟨⟨upd (fun _ => none) n (.many ((List.range (nOut n)).map c)),
    upd (upd (fun _ => none) a.dst (.one (c 0))) b.dst (.one (c 1))⟩, ?_, ?_, ?_, ?_, ?_⟩
  · unfold setOut
    rw [if_pos (by omega), hz, List.foldlM_cons, attach_single ha1']
    show Option.map _ (List.foldlM (attach g n) _ [(c 1, b)]) = _
    rw [List.foldlM_cons, attach_single hb1']
    rfl
  all_goals simp [readOut, readIn, upd, hn, St.empty, hbd.symm, had.symm]

/-! ### Shift negative correction -/

theorem outOne_setOut {g : Gr N} {nOut : N → Nat} {n : N} {c : Nat → S} {st st' : St N S}
    (hn : nOut n = 1) (h : setOut g nOut n c st = some st') :
    outOne st' n = some (c 0) ∧ ∀ m, m ≠ n → st'.out m = st.out m := by
  unfold setOut at h
  rw [if_neg (by simpa using hn)] at h
  obtain ⟨ins, _, rfl⟩ := Option.map_eq_some_iff.mp h
  exact ⟨by simp [outOne, upd], fun m hm => by simp [upd, hm]⟩

/-- The only producer of a layer with one input determines what the layer is given. -/
theorem setOut_feeds {g : Gr N} {nOut : N → Nat} {n : N} {c : Nat → S} {st st' : St N S}
    {e : Edge N} (hn : nOut n = 1) (hin : sortedIn g e.dst = [e]) (hs : e.src = n)
    (h : setOut g nOut n c st = some st') : st'.ins e.dst = some (.one (c 0)) := by
  unfold setOut at h
  rw [if_neg (by simpa using hn)] at h
  obtain ⟨ins, hf, rfl⟩ := Option.map_eq_some_iff.mp h
  have h1 : (inNodes g e.dst).length = 1 := by simp [inNodes, hin]
  have hmem : e ∈ outEdges g n := by
    have : e ∈ sortedIn g e.dst := by rw [hin]; simp
    simp [outEdges, (mem_sortedIn.mp this).1, hs]
  have gen : ∀ (L : List (Edge N)) (i i' : N → Option (InS S)),
      List.foldlM (attach g n) i (L.map (fun x => (c 0, x))) = some i' →
      (e ∈ L ∨ i e.dst = some (.one (c 0))) → i' e.dst = some (.one (c 0)) := by
    intro L
    induction L with
    | nil =>
      intro i i' h hor
      simp at h
      subst h
      simpa using hor
    | cons x L ih =>
      intro i i' h hor
      rw [List.map_cons, List.foldlM_cons] at h
      obtain ⟨i1, hi1, hi2⟩ := Option.bind_eq_some_iff.mp h
      refine ih i1 i' hi2 ?_
      by_cases hx : x.dst = e.dst
      · right
        rw [attach_single (by show (inNodes g x.dst).length = 1; rw [hx]; exact h1)] at hi1
        injection hi1 with hi1
        subst hi1
        simp [upd, hx]
      · rcases hor with hm | hi
        · left
          rcases List.mem_cons.mp hm with rfl | hm
          · exact absurd rfl hx
          · exact hm
        · right
          unfold attach at hi1
          split at hi1
          · obtain ⟨v, _, rfl⟩ := Option.map_eq_some_iff.mp hi1
            simp [upd, Ne.symm hx, hi]
          · injection hi1 with hi1
            subst hi1
            simp [upd, Ne.symm hx, hi]
  exact gen _ _ _ hf (Or.inl hmem)

theorem shiftTimes_spec {g : Gr N} {nOut : N → Nat} {f : S → S} {n : N} (hn : nOut n = 1) :
    ∀ (k : Nat) {st st' : St N S} {s : S}, outOne st n = some s →
      shiftTimes g nOut f n k st = some st' →
      outOne st' n = some (f^[k] s) ∧
        ∀ e : Edge N, sortedIn g e.dst = [e] → e.src = n → 0 < k →
          st'.ins e.dst = some (.one (f^[k] s))
  | 0, st, st', s, hs, h => by
    simp only [shiftTimes, Option.some.injEq] at h
    subst h
    exact ⟨hs, fun _ _ _ h => absurd h (by omega)⟩
  | k + 1, st, st', s, hs, h => by
    simp only [shiftTimes] at h
    obtain ⟨s1, h1, h2⟩ := Option.bind_eq_some_iff.mp h
    unfold shiftOut at h1
    rw [hs] at h1
    have h1' : setOut g nOut n (fun _ => f s) st = some s1 := h1
    have ho := (outOne_setOut hn h1').1
    obtain ⟨ha, hb⟩ := shiftTimes_spec hn k ho h2
    refine ⟨by rw [ha]; rfl, fun e he hse _ => ?_⟩
    rcases Nat.eq_zero_or_pos k with rfl | hk
    · simp only [shiftTimes, Option.some.injEq] at h2
      subst h2
      exact setOut_feeds hn he hse h1'
    · rw [hb e he hse hk]; rfl

/-- C154: without padding and without bypassed layers, after shift negative correction the added
layer and the linear layer it feeds have the shifted statistics of the activation, whose own
statistics are unchanged. -/
theorem C154_shift {g : Gr N} {nOut : N → Nat} {f : S → S} {nl add : N} {st st' : St N S} {s : S}
    (hadd : nOut add = 1) (hne : add ≠ nl) (hs : outOne st nl = some s)
    (h : snc g g nOut f nl add none [] st = some st') :
    outOne st' add = some (f s) ∧ outOne st' nl = some s ∧
      ∀ e : Edge N, sortedIn g e.dst = [e] → e.src = add → st'.ins e.dst = some (.one (f s)) := by
  unfold snc at h
  rw [hs, Option.bind_some] at h
  obtain ⟨s1, h1, h⟩ := Option.bind_eq_some_iff.mp h
  obtain ⟨s2, h2, h⟩ := Option.bind_eq_some_iff.mp h
  simp only [snc.sncPad, Option.bind_some, List.foldlM_nil] at h
  have h' : s2 = st' := Option.some.inj h
  subst h'
  have ho := outOne_setOut hadd h1
  unfold shiftOut at h2
  rw [ho.1] at h2
  have h2' : setOut g nOut add (fun _ => f s) s1 = some s2 := h2
  have ho2 := outOne_setOut hadd h2'
  refine ⟨ho2.1, ?_, fun e he hse => setOut_feeds hadd he hse h2'⟩
  unfold outOne at hs ⊢
  rw [ho2.2 nl hne.symm, ho.2 nl hne.symm]
  exact hs

/-- C154, violated: when the linear layer pads, it and the padding layer put before it are given
the statistics of the activation before the shift, whatever the shift, although the layer feeding
the padding layer has the shifted ones. -/
theorem C154_pad_violated {g₁ g₂ : Gr N} {nOut : N → Nat} {f : S → S} {nl add pad : N}
    {st st' : St N S} {s : S} {e : Edge N}
    (hadd : nOut add = 1) (hpad : nOut pad = 1) (hne : add ≠ pad) (hs : outOne st nl = some s)
    (hin : sortedIn g₂ e.dst = [e]) (hsrc : e.src = pad)
    (h : snc g₁ g₂ nOut f nl add (some pad) [] st = some st') :
    outOne st' add = some (f s) ∧ outOne st' pad = some s ∧
      st'.ins e.dst = some (.one s) := by
  unfold snc at h
  rw [hs, Option.bind_some] at h
  obtain ⟨s1, h1, h⟩ := Option.bind_eq_some_iff.mp h
  obtain ⟨s2, h2, h⟩ := Option.bind_eq_some_iff.mp h
  obtain ⟨s3, h3, h⟩ := Option.bind_eq_some_iff.mp h
  have h' : s3 = st' := Option.some.inj h
  subst h'
  have ho := outOne_setOut hadd h1
  unfold shiftOut at h2
  rw [ho.1] at h2
  have ho2 := outOne_setOut hadd (show setOut g₁ nOut add (fun _ => f s) s1 = some s2 from h2)
  have h3' : setOut g₂ nOut pad (fun _ => s) s2 = some s3 := h3
  have ho3 := outOne_setOut hpad h3'
  refine ⟨?_, ho3.1, setOut_feeds hpad hin hsrc h3'⟩
  have := ho2.1
  unfold outOne at this ⊢
  rw [ho3.2 add hne]
  exact this

/-- C154, violated: a layer that shift negative correction bypasses has its statistics shifted once
for each of its candidates, and so has the linear layer it feeds. -/
theorem C154_bypass_violated {g : Gr N} {nOut : N → Nat} {f : S → S} {nl add by_ : N} {k : Nat}
    {st st' : St N S} {s sb : S} {e : Edge N}
    (hadd : nOut add = 1) (hby : nOut by_ = 1) (hne : by_ ≠ add) (hk : 0 < k)
    (hs : outOne st nl = some s) (hsb : outOne st by_ = some sb)
    (hin : sortedIn g e.dst = [e]) (hsrc : e.src = by_)
    (h : snc g g nOut f nl add none [(by_, k)] st = some st') :
    outOne st' by_ = some (f^[k] sb) ∧ st'.ins e.dst = some (.one (f^[k] sb)) := by
  unfold snc at h
  rw [hs, Option.bind_some] at h
  obtain ⟨s1, h1, h⟩ := Option.bind_eq_some_iff.mp h
  obtain ⟨s2, h2, h⟩ := Option.bind_eq_some_iff.mp h
  simp only [snc.sncPad, Option.bind_some] at h
  rw [List.foldlM_cons] at h
  obtain ⟨s3, h3, h⟩ := Option.bind_eq_some_iff.mp h
  have h' : s3 = st' := Option.some.inj h
  subst h'
  have ho := outOne_setOut hadd h1
  unfold shiftOut at h2
  rw [ho.1] at h2
  have ho2 := outOne_setOut hadd (show setOut g nOut add (fun _ => f s) s1 = some s2 from h2)
  have hb2 : outOne s2 by_ = some sb := by
    unfold outOne at hsb ⊢
    rw [ho2.2 by_ hne, ho.2 by_ hne]
    exact hsb
  have := shiftTimes_spec hby k hb2 h3
  exact ⟨this.1, this.2 e hin hsrc hk⟩

/-- The mean of some values. -/
noncomputable def mean (xs : List ℝ) : ℝ := xs.sum / xs.length

/-- What the statistics should become: shifting values shifts their mean by as much. -/
theorem mean_shift (xs : List ℝ) (h : xs ≠ []) (v : ℝ) : mean (xs.map (· + v)) = mean xs + v := by
  have hl : (xs.length : ℝ) ≠ 0 := by
    simpa using h
  have hsum : (xs.map (· + v)).sum = xs.sum + xs.length * v := by
    clear h hl
    induction xs with
    | nil => simp
    | cons a xs ih =>
      simp only [List.map_cons, List.sum_cons, ih, List.length_cons]
      push_cast
      ring
  unfold mean
  rw [hsum, List.length_map]
  field_simp

/-- C154, violated: in terms of means: when the linear layer pads, the mean it is given for its
input differs from the mean of the values the added layer passes on, for every non zero shift. -/
theorem C154_mean_violated {g₁ g₂ : Gr N} {nOut : N → Nat} {nl add pad : N}
    {st st' : St N ℝ} {xs : List ℝ} {v : ℝ} {e : Edge N} (hx : xs ≠ []) (hv : v ≠ 0)
    (hadd : nOut add = 1) (hpad : nOut pad = 1) (hne : add ≠ pad)
    (hs : outOne st nl = some (mean xs))
    (hin : sortedIn g₂ e.dst = [e]) (hsrc : e.src = pad)
    (h : snc g₁ g₂ nOut (· + v) nl add (some pad) [] st = some st') :
    outOne st' add = some (mean (xs.map (· + v))) ∧
      ∃ μ, st'.ins e.dst = some (.one μ) ∧ μ ≠ mean (xs.map (· + v)) := by
  obtain ⟨h1, _, h3⟩ := C154_pad_violated hadd hpad hne hs hin hsrc h
  rw [mean_shift xs hx]
  exact ⟨h1, _, h3, fun hc => hv (by linarith)⟩

/-! ### The hypotheses are met -/

/-- 0 has two outputs, feeding 1 and 2, which are added by 3. -/
def gOk : Gr Nat := ⟨[0, 1, 2, 3], [⟨0, 1, 0, 0⟩, ⟨0, 2, 1, 0⟩, ⟨1, 3, 0, 1⟩, ⟨2, 3, 0, 0⟩], [0], [(3, 0)]⟩

def nOk : Nat → Nat := fun n => if n = 0 then 2 else 1

example : Plain gOk nOk := by
  constructor
  · intro m
    by_cases h3 : m ≤ 3
    · interval_cases m <;> decide
    · have : inEdges gOk m = [] := by
        simp [inEdges, gOk]; omega
      rw [this]; simp
  · intro m
    by_cases h3 : m ≤ 3
    · interval_cases m <;> decide
    · have : inEdges gOk m = [] := by
        simp [inEdges, gOk]; omega
      rw [this]; simp
  · decide
  · intro n hn
    have : n = 0 := by
      by_contra hc
      simp [nOk, hc] at hn
    subst this
    decide

example : inNodes (⟨[0, 1], [⟨0, 1, 0, 0⟩, ⟨0, 1, 0, 1⟩], [0], [(1, 0)]⟩ : Gr Nat) 1 = [0, 0] := by
  decide

example : sortedOut (⟨[0, 1, 2, 3], [⟨0, 3, 1, 0⟩, ⟨0, 1, 0, 0⟩, ⟨0, 2, 0, 0⟩], [0], []⟩ : Gr Nat) 0
    = [⟨0, 1, 0, 0⟩, ⟨0, 2, 0, 0⟩, ⟨0, 3, 1, 0⟩] := by decide

/-- 0 activation, 1 added layer, 2 padding layer, 3 linear layer. -/
def gPad₁ : Gr Nat := ⟨[0, 3, 1], [⟨0, 1, 0, 0⟩, ⟨1, 3, 0, 0⟩], [0], [(3, 0)]⟩

def gPad₂ : Gr Nat := ⟨[0, 3, 1, 2], [⟨0, 1, 0, 0⟩, ⟨1, 2, 0, 0⟩, ⟨2, 3, 0, 0⟩], [0], [(3, 0)]⟩

/-- The mean of the linear layer's input is 7 before and after a shift by 5, and that of the added
layer's output is 12. -/
example : ((run gPad₁ (fun _ => 1) [(0, fun _ => (7 : Int))] St.empty).bind
      (snc gPad₁ gPad₂ (fun _ => 1) (· + 5) 0 1 (some 2) [])).map
      (fun st => (readIn st 3 0, readOut st 1 0, readOut st 2 0))
    = some (some 7, some 12, some 7) := by decide

example : sortedIn gPad₂ 3 = [⟨2, 3, 0, 0⟩] := by decide

/-- A bypassed layer (2) with three candidates: the mean 7 becomes 22 instead of 12. -/
example : ((run gPad₂ (fun _ => 1) [(0, fun _ => (7 : Int)), (2, fun _ => 7)] St.empty).bind
      (snc gPad₂ gPad₂ (fun _ => 1) (· + 5) 0 1 none [(2, 3)])).map
      (fun st => (readIn st 3 0, readOut st 1 0, readOut st 2 0))
    = some (some 22, some 12, some 22) := by decide

end MCT.Attach
