/-
Properties of the graph part of the substitutions: merging two layers (C32, C33, C36), the swish and
the residual substitutions (C66, C67), inserting and removing a layer on an edge (C68, C69), and
replacing a layer by one or two others (C70, C71).
-/
import Verif.Graph.Props

namespace MCT.Graph
open MCT.GraphSpec

set_option linter.unusedSectionVars false
set_option linter.unusedVariables false

variable {N V : Type*} [DecidableEq N]

/-! ### C32, C33, C36: two layers in sequence replaced by one -/

/-- **C32/C33/C36**, the graph part: when `b` is the only consumer of `a`, reads nothing else, and
`a` is neither an input nor an output of the model, the two are replaced by one layer that computes
their composition, and the model computes the same function. -/
theorem C32_merge_two_layers_partial {g : Gr N} (wf : WellFormed g) {a b c : N} {e : Edge N}
    (hout : edgesFrom g a = [e]) (hin : edgesInto g b = [e]) (hc : c ∉ g.nodes)
    (hao : ¬ IsOutput g a) (hai : a ∉ g.inputs)
    {I : Interp N V} (hI : ∀ args k, I c args k = I b [I a args e.si] k) :
    ∃ g', mergePair g a b c = some g' ∧ WellFormed g' ∧ SameFunction g I g' I ∧
      (∀ m, m ∈ g'.nodes ↔ m = c ∨ (m ∈ g.nodes ∧ m ≠ a ∧ m ≠ b)) := by
  obtain ⟨g', R, h, M⟩ := mergePair_result wf (a := a) (b := b) hout hin hc (not_output hao) hai
  obtain ⟨ha, hb, hab, hca, hcb, _, _, hm⟩ := M.facts wf hc
  refine ⟨g', h, M.wf wf hc (not_output hao) hai, M.same wf hin hc (not_output hao) hai hI, ?_⟩
  intro m
  rw [hm]
  constructor
  · rintro ⟨h1 | h1, h2, h3⟩
    · exact Or.inl h1
    · exact Or.inr ⟨h1, h2, h3⟩
  · rintro (rfl | ⟨h1, h2, h3⟩)
    · exact ⟨Or.inl rfl, hca, hcb⟩
    · exact ⟨Or.inr h1, h2, h3⟩

/-- Layers that share a tensor or read several are left alone. -/
theorem C32_shared_left_alone {g : Gr N} {a b c : N}
    (h : 1 < (edgesFrom g a).length ∨ 1 < (edgesInto g b).length) : mergePair g a b c = some g := by
  rw [mergePair, if_pos]
  simpa [nextNodes, prevNodes, outEdges, inEdges, edgesFrom, edgesInto] using h

/-- A convolution 1 followed by a batch normalisation 2, between an input and a consumer. -/
def chain4 : Gr Nat :=
  { nodes := [0, 1, 2, 3], edges := [⟨0, 1, 0, 0⟩, ⟨1, 2, 0, 0⟩, ⟨2, 3, 0, 0⟩, ⟨0, 3, 0, 1⟩],
    inputs := [0], outputs := [(3, 0), (2, 0)] }

example : WellFormed chain4 ∧ edgesFrom chain4 1 = [⟨1, 2, 0, 0⟩] ∧
    edgesInto chain4 2 = [⟨1, 2, 0, 0⟩] ∧ ¬ IsOutput chain4 1 ∧ 1 ∉ chain4.inputs :=
  ⟨wf_of_check (rank := id) (by decide), by decide, by decide, by simp [IsOutput, chain4],
    by decide⟩
example : mergePair chain4 1 2 9 = some
    { nodes := [0, 3, 9], edges := [⟨0, 3, 0, 1⟩, ⟨9, 3, 0, 0⟩, ⟨0, 9, 0, 0⟩], inputs := [0],
      outputs := [(3, 0), (9, 0)] } := by decide

/-- **C32 is violated** for a layer that is also an output of the model: the folding does not skip
it and does not fold it either, it stops with an error. -/
theorem C32_model_output_violated :
    ∃ g : Gr Nat, WellFormed g ∧ edgesFrom g 1 = [⟨1, 2, 0, 0⟩] ∧ edgesInto g 2 = [⟨1, 2, 0, 0⟩] ∧
      mergePair g 1 2 9 = none :=
  ⟨{ nodes := [0, 1, 2], edges := [⟨0, 1, 0, 0⟩, ⟨1, 2, 0, 0⟩], inputs := [0],
     outputs := [(1, 0), (2, 0)] }, wf_of_check (rank := id) (by decide), by decide, by decide,
    by decide⟩

/-! ### C66, C67: a layer and the combination of its result with its own input -/

/-- **C66**, as far as it holds: `x · sigmoid(x)` is replaced by one layer and the model computes
the same function, when the multiplication has just the two inputs and both read the SAME OUTPUT of
the layer before. The code does not test the latter: see `C66_gated_violated`. -/
theorem C66_swish_partial {g : Gr N} (wf : WellFormed g) {p sig mul new : N} {e1 e2 e3 : Edge N}
    (hins : edgesInto g sig = [e1]) (houts : edgesFrom g sig = [e3])
    (hinm : (edgesInto g mul).Perm [e2, e3]) (h1 : e1.src = p) (h2 : e2.src = p)
    (hnew : new ∉ g.nodes) (hso : ¬ IsOutput g sig) (hsi : e1.si = e2.si) {I : Interp N V}
    (hl : ∀ x k, I mul [x, I sig [x] e3.si] k = I new [x] k)
    (hr : ∀ x k, I mul [I sig [x] e3.si, x] k = I new [x] k) :
    ∃ g', sigmoidMul g sig mul new = some g' ∧ WellFormed g' ∧ SameFunction g I g' I ∧
      (∀ m, m ∈ g'.nodes ↔ (m = new ∨ m ∈ g.nodes) ∧ m ≠ sig ∧ m ≠ mul) := by
  obtain ⟨g', R, h, M⟩ := sigmoidMul_result wf (a := sig) (b := mul) hins houts hinm h1 h2 hnew
    (not_output hso)
  exact ⟨g', h, M.wf wf hnew (not_output hso),
    M.same wf hins hinm hnew (not_output hso) hsi hl hr, M.nodes⟩

/-- The sigmoid 1 and the multiplication 2 on an input, with a consumer 3. -/
def swishGraph : Gr Nat :=
  { nodes := [0, 1, 2, 3], edges := [⟨0, 1, 0, 0⟩, ⟨0, 2, 0, 1⟩, ⟨1, 2, 0, 0⟩, ⟨2, 3, 0, 0⟩],
    inputs := [0], outputs := [(3, 0)] }

example : WellFormed swishGraph ∧ edgesInto swishGraph 1 = [⟨0, 1, 0, 0⟩] ∧
    edgesFrom swishGraph 1 = [⟨1, 2, 0, 0⟩] ∧
    (edgesInto swishGraph 2).Perm [⟨0, 2, 0, 1⟩, ⟨1, 2, 0, 0⟩] ∧ ¬ IsOutput swishGraph 1 :=
  ⟨wf_of_check (rank := id) (by decide), by decide, by decide, by decide,
    by simp [IsOutput, swishGraph]⟩
example : sigmoidMul swishGraph 1 2 9 = some
    { nodes := [0, 3, 9], edges := [⟨0, 9, 0, 0⟩, ⟨9, 3, 0, 0⟩], inputs := [0],
      outputs := [(3, 0)] } := by decide

/-- **C66**: a sigmoid that is an output of the model, that has several consumers, or that is multiplied
with another layer than the one it reads, is left alone. -/
theorem C66_left_alone {g : Gr N} {sig mul new : N} {e1 : Edge N} (hin : edgesInto g sig = [e1])
    (h : IsOutput g sig ∨ 1 < (edgesFrom g sig).length ∨ ∀ e ∈ edgesInto g mul, e.src ≠ e1.src) :
    sigmoidMul g sig mul new = some g := by
  rw [sigmoidMul]
  split
  · rfl
  · rename_i hno
    have hp : prevNodes g sig = [e1.src] := by
      have : inEdges g sig = [e1] := hin
      simp [prevNodes, this]
    rw [hp]
    simp only
    rw [if_pos]
    rcases h with ⟨k, hk⟩ | h | h
    · exact absurd (List.mem_map.mpr ⟨(sig, k), hk, rfl⟩) hno
    · exact Or.inl (by simpa [nextNodes, outEdges, edgesFrom] using h)
    · refine Or.inr (fun hm => ?_)
      obtain ⟨e, he, hs⟩ := List.mem_map.mp hm
      exact h e he hs

example : sigmoidMul { swishGraph with edges := [⟨0, 1, 0, 0⟩, ⟨3, 2, 0, 1⟩, ⟨1, 2, 0, 0⟩] } 1 2 9 =
    some { swishGraph with edges := [⟨0, 1, 0, 0⟩, ⟨3, 2, 0, 1⟩, ⟨1, 2, 0, 0⟩] } := by decide

/-- A gated linear unit: 1 splits its input in two, 2 is the sigmoid of the second half, 3 the
product with the first half. -/
def gatedGraph : Gr Nat :=
  { nodes := [0, 1, 2, 3], edges := [⟨0, 1, 0, 0⟩, ⟨1, 2, 1, 0⟩, ⟨1, 3, 0, 0⟩, ⟨2, 3, 0, 1⟩],
    inputs := [0], outputs := [(3, 0)] }

/-- Any function `s` in the place of the sigmoid; node 9 is the replacement, `x · s x`. -/
def gatedLayers (s : Int → Int) : Interp Nat Int := fun n args k =>
  if n = 1 then args.getD 0 0 + k
  else if n = 2 then s (args.getD 0 0)
  else if n = 3 then args.getD 0 0 * args.getD 1 0
  else if n = 9 then args.getD 0 0 * s (args.getD 0 0)
  else 0

/-- **C66 is violated** for a gated linear unit `x₁ · sigmoid(x₂)` with `x₁`, `x₂` two outputs of the
same layer: it becomes `x₂ · sigmoid(x₂)`. -/
theorem C66_gated_violated :
    ∃ s g', WellFormed gatedGraph ∧ sigmoidMul gatedGraph 2 3 9 = some g' ∧
      (∀ x k, gatedLayers s 3 [x, gatedLayers s 2 [x] 0] k = gatedLayers s 9 [x] k) ∧
      ¬ SameFunction gatedGraph (gatedLayers s) g' (gatedLayers s) := by
  refine ⟨fun _ => 1, { nodes := [0, 1, 9], edges := [⟨0, 1, 0, 0⟩, ⟨1, 9, 1, 0⟩], inputs := [0],
                        outputs := [(9, 0)] }, wf_of_check (rank := id) (by decide), by decide,
    fun x k => by simp [gatedLayers], ?_⟩
  refine not_same (rank := id) (rank' := fun n => if n = 9 then 2 else n) (fun _ => 0) 4 (by decide)
    (by decide) (by decide) (by decide) ?_
  simp [run, evalAt, arguments, incoming, gatedGraph, gatedLayers, List.mergeSort,
    List.MergeSort.Internal.splitInTwo]

/-- **C67**, the graph part, as far as it holds: a layer and the addition of its input are replaced
by one layer that computes the sum, and the model computes the same function, when both read the
SAME OUTPUT of the layer before. -/
theorem C67_residual_partial {g : Gr N} (wf : WellFormed g) {p a b c : N} {e1 e2 e3 : Edge N}
    (hina : edgesInto g a = [e1]) (houta : edgesFrom g a = [e3])
    (hinb : (edgesInto g b).Perm [e2, e3]) (h1 : e1.src = p) (h2 : e2.src = p) (hc : c ∉ g.nodes)
    (hao : ¬ IsOutput g a) (hsi : e1.si = e2.si) {I : Interp N V}
    (hl : ∀ x k, I b [x, I a [x] e3.si] k = I c [x] k)
    (hr : ∀ x k, I b [I a [x] e3.si, x] k = I c [x] k) :
    ∃ g', collapseResidual g a b c = some g' ∧ WellFormed g' ∧ SameFunction g I g' I ∧
      (∀ m, m ∈ g'.nodes ↔ (m = c ∨ m ∈ g.nodes) ∧ m ≠ a ∧ m ≠ b) := by
  obtain ⟨g', R, h, M⟩ := collapseResidual_result wf (a := a) (b := b) hina houta hinb h1 h2 hc
    (not_output hao)
  exact ⟨g', h, M.wf wf hc (not_output hao), M.same wf hina hinb hc (not_output hao) hsi hl hr,
    M.nodes⟩

example : collapseResidual swishGraph 1 2 9 = some
    { nodes := [0, 3, 9], edges := [⟨9, 3, 0, 0⟩, ⟨0, 9, 0, 0⟩], inputs := [0],
      outputs := [(3, 0)] } := by decide

/-- **C67**: a layer with several consumers, an addition that has not two operands, and the addition of
another layer than the one the layer reads, are left alone. -/
theorem C67_left_alone {g : Gr N} {a b c : N} {e1 e2 e3 : Edge N} (hin : edgesInto g a = [e1])
    (h : 1 < (edgesFrom g a).length ∨ (edgesInto g b).length ≠ 2 ∨
      ((edgesInto g b).Perm [e2, e3] ∧ e3.src = a ∧ e2.src ≠ e1.src)) :
    collapseResidual g a b c = some g := by
  have hp : prevNodes g a = [e1.src] := by
    have : inEdges g a = [e1] := hin
    simp [prevNodes, this]
  rw [collapseResidual]
  split
  · rfl
  · rename_i hno
    simp only [not_or, not_lt, ne_eq, not_not] at hno
    obtain ⟨n1, _, n3⟩ := hno
    rcases h with h | h | ⟨h1, h2, h3⟩
    · simp only [nextNodes, List.length_map, outEdges] at n1
      simp only [edgesFrom] at h
      omega
    · simp only [prevNodes, List.length_map, inEdges] at n3
      exact absurd n3 h
    · have hb : (prevNodes g b).Perm [e2.src, e3.src] := by
        have := h1.map Edge.src
        simpa [prevNodes, inEdges, edgesInto] using this
      have he : ((prevNodes g b).erase a).Perm [e2.src] := by
        refine (hb.erase a).trans ?_
        rw [h2]
        by_cases hx : e2.src = a
        · rw [hx]; simp
        · rw [List.erase_cons_tail (by simpa using hx)]; simp
      rw [hp, List.perm_singleton.mp he]
      simp only
      rw [if_pos (fun hh => h3 hh.symm)]

example : collapseResidual { swishGraph with edges := [⟨0, 1, 0, 0⟩, ⟨3, 2, 0, 1⟩, ⟨1, 2, 0, 0⟩] } 1 2 9 =
    some { swishGraph with edges := [⟨0, 1, 0, 0⟩, ⟨3, 2, 0, 1⟩, ⟨1, 2, 0, 0⟩] } := by decide

/-- The same two-output layer 1: 2 triples the second output, 3 adds the first one; 9 computes
`x + 3 x`. -/
def residualLayers : Interp Nat Int := fun n args k =>
  if n = 1 then args.getD 0 0 + k
  else if n = 2 then 3 * args.getD 0 0
  else if n = 3 then args.getD 0 0 + args.getD 1 0
  else if n = 9 then 4 * args.getD 0 0
  else 0

/-- **C67 is violated** when the two read different outputs of the layer before. -/
theorem C67_two_outputs_violated :
    ∃ g', WellFormed gatedGraph ∧ collapseResidual gatedGraph 2 3 9 = some g' ∧
      (∀ x k, residualLayers 3 [x, residualLayers 2 [x] 0] k = residualLayers 9 [x] k) ∧
      ¬ SameFunction gatedGraph residualLayers g' residualLayers := by
  refine ⟨{ nodes := [0, 1, 9], edges := [⟨0, 1, 0, 0⟩, ⟨1, 9, 1, 0⟩], inputs := [0],
            outputs := [(9, 0)] }, wf_of_check (rank := id) (by decide), by decide,
    fun x k => by simp [residualLayers]; omega, ?_⟩
  refine not_same (rank := id) (rank' := fun n => if n = 9 then 2 else n) (fun _ => 0) 4 (by decide)
    (by decide) (by decide) (by decide) ?_
  simp [run, evalAt, arguments, incoming, gatedGraph, residualLayers, List.mergeSort,
    List.MergeSort.Internal.splitInTwo]

/-! ### C68, C69: inserting and removing a layer on an edge -/

/-- **C68**, as far as it holds: a layer is inserted on the only edge between two layers, and the
model computes the same function when the consumer now computes, from the new tensor in that input
slot, what it computed from the old one. Shift negative correction needs both: the inserted layer
adds a constant, the new weights of the consumer take it back. The edge must read the FIRST output
of the first layer: see `C68_second_output_violated`. -/
theorem C68_insert_partial {g : Gr N} (wf : WellFormed g) {new first last : N} {e : Edge N}
    (hf : edgesBetween g first last = [e]) (hnew : new ∉ g.nodes) (hsi : e.si = 0)
    {I I' : Interp N V} (hsame : ∀ m ∈ g.nodes, m ≠ last → I' m = I m)
    (hI : ∀ (L : List (Nat × V)) k, I' last ((L.map (atSlot e.di (fun x => I' new [x] 0))).map
      Prod.snd) k = I last (L.map Prod.snd) k) :
    ∃ g', insertBetween g new first last = some g' ∧ WellFormed g' ∧ SameFunction g I g' I' ∧
      g'.nodes = g.nodes ++ [new] := by
  obtain ⟨g', R, h, M⟩ := insertBetween_result wf (first := first) (last := last) hf hnew
  exact ⟨g', h, M.wf wf hnew, M.same wf hnew hsi hsame hI, M.nodes⟩

/-- Inserting after a layer with one consumer and before a layer with one producer are the same
edit; with several the code reports an error. -/
theorem C68_insert_after {g : Gr N} {new first : N} {e : Edge N} (h : edgesFrom g first = [e]) :
    insertAfter g new first = insertBetween g new first e.dst := by
  have : nextNodes g first = [e.dst] := by
    simp only [nextNodes, outEdges]; rw [show g.edges.filter _ = [e] from h]; rfl
  simp only [insertAfter, this]

theorem C68_insert_before {g : Gr N} {new last : N} {e : Edge N} (h : edgesInto g last = [e]) :
    insertBefore g new last = insertBetween g new e.src last := by
  have : prevNodes g last = [e.src] := by
    simp only [prevNodes, inEdges]; rw [show g.edges.filter _ = [e] from h]; rfl
  simp only [insertBefore, this]

/-- The hypotheses on the second input of a subtraction: 9 adds 5, the new subtraction takes it
back. -/
example : WellFormed diamond ∧ edgesBetween diamond 2 3 = [⟨2, 3, 0, 1⟩] ∧
    insertBetween diamond 9 2 3 = some
      { nodes := [0, 1, 2, 3, 9], inputs := [0], outputs := [(3, 0), (1, 0)],
        edges := [⟨0, 1, 0, 0⟩, ⟨0, 2, 0, 0⟩, ⟨1, 3, 0, 0⟩, ⟨2, 9, 0, 1⟩, ⟨9, 3, 0, 1⟩] } :=
  ⟨wf_of_check (rank := id) (by decide), by decide, by decide⟩

/-- **C68 is violated** on an edge that reads the second output of a layer: the consumer is wired to
the second output of the inserted layer, which has only one. Here outputs that do not exist are 0,
and the inserted layer is the identity. -/
theorem C68_second_output_violated :
    ∃ (I : Interp Nat Int) (g g' : Gr Nat), WellFormed g ∧ insertBetween g 9 1 2 = some g' ∧
      (∀ x, I 9 [x] 0 = x) ∧ (∀ x k, I 9 [x] (k + 1) = 0) ∧
      (∃ e ∈ g'.edges, e.src = 9 ∧ e.si = 1) ∧ ¬ SameFunction g I g' I := by
  refine ⟨fun n args k => if n = 9 then (if k = 0 then args.getD 0 0 else 0)
      else args.getD 0 0 + k,
    { nodes := [0, 1, 2], edges := [⟨0, 1, 0, 0⟩, ⟨1, 2, 1, 0⟩], inputs := [0],
      outputs := [(2, 0)] },
    { nodes := [0, 1, 2, 9], edges := [⟨0, 1, 0, 0⟩, ⟨1, 9, 1, 0⟩, ⟨9, 2, 1, 0⟩], inputs := [0],
      outputs := [(2, 0)] }, wf_of_check (rank := id) (by decide), by decide,
    fun x => by simp, fun x k => by simp, by decide, ?_⟩
  refine not_same (rank := id) (rank' := fun n => if n = 9 then 2 else if n = 2 then 3 else n)
    (fun _ => 0) 4 (by decide) (by decide) (by decide) (by decide) ?_
  simp [run, evalAt, arguments, incoming]

/-- **C69**, as far as it holds: a layer with one producer and one consumer is removed, and the model
computes the same function when the consumer now computes, from the tensor the removed layer read,
what it computed from the tensor that layer gave. The layer must sit in the input slot of the
consumer that equals its own input index: see `C69_second_input_violated`. -/
theorem C69_remove_partial {g : Gr N} (wf : WellFormed g) {n first last : N} {e1 e2 : Edge N}
    (hin : edgesInto g n = [e1]) (hout : edgesFrom g n = [e2]) (h1 : e1.src = first)
    (h2 : e2.dst = last) (ho : ¬ IsOutput g n) (hdi : e1.di = e2.di) (hsi : e2.si = 0)
    {I I' : Interp N V} (hsame : ∀ m ∈ g.nodes, m ≠ last → I' m = I m)
    (hI : ∀ (L : List (Nat × V)) k, I last ((L.map (atSlot e2.di (fun x => I n [x] 0))).map
      Prod.snd) k = I' last (L.map Prod.snd) k) :
    ∃ g', removeBetween g n first last = some g' ∧ WellFormed g' ∧ SameFunction g I g' I' ∧
      g'.nodes = g.nodes.erase n := by
  obtain ⟨g', R, h, M⟩ := removeBetween_result wf (n := n) hin hout h1 h2 (not_output ho)
  exact ⟨g', h, M.wf wf (not_output ho) hdi, M.same wf hin (not_output ho) hdi hsi hsame hI,
    M.nodes⟩

example : edgesInto chain4 2 = [⟨1, 2, 0, 0⟩] ∧ edgesFrom chain4 2 = [⟨2, 3, 0, 0⟩] ∧
    ¬ IsOutput { chain4 with outputs := [(3, 0)] } 2 ∧
    removeBetween { chain4 with outputs := [(3, 0)] } 2 1 3 = some
      { nodes := [0, 1, 3], edges := [⟨0, 1, 0, 0⟩, ⟨0, 3, 0, 1⟩, ⟨1, 3, 0, 0⟩], inputs := [0],
        outputs := [(3, 0)] } :=
  ⟨by decide, by decide, by simp [IsOutput], by decide⟩

/-- **C69 is violated** for a layer that feeds the second input of its consumer: the new edge enters
the first slot, which is taken. The layer removed here is an identity. -/
theorem C69_second_input_violated :
    ∃ (I : Interp Nat Int) (g g' : Gr Nat), WellFormed g ∧ (∀ x k, I 1 [x] k = x) ∧
      removeBetween g 1 0 3 = some g' ∧ edgesInto g' 3 = [⟨2, 3, 0, 0⟩, ⟨0, 3, 0, 0⟩] ∧
      ¬ WellFormed g' := by
  refine ⟨fun n args k => args.getD 0 0,
    { nodes := [0, 1, 2, 3], edges := [⟨0, 1, 0, 0⟩, ⟨1, 3, 0, 1⟩, ⟨2, 3, 0, 0⟩], inputs := [0, 2],
      outputs := [(3, 0)] },
    { nodes := [0, 2, 3], edges := [⟨2, 3, 0, 0⟩, ⟨0, 3, 0, 0⟩], inputs := [0, 2],
      outputs := [(3, 0)] }, wf_of_check (rank := id) (by decide), fun x k => by simp, by decide,
    by decide, ?_⟩
  intro wf
  exact absurd (wf.slots 3) (by decide)

/-! ### C70: replacing a layer by an equivalent one -/

/-- **C70**, as far as it holds: a layer that is not an output of the model, or is its only output,
is replaced by an equivalent one and the model computes the same function. -/
theorem C70_decomposed_partial {g : Gr N} (wf : WellFormed g) {cur new : N} {e : Edge N}
    (hin : edgesInto g cur = [e]) (hnew : new ∉ g.nodes)
    (hout : ¬ IsOutput g cur ∨ g.outputs = [(cur, 0)]) {I : Interp N V} (hI : I new = I cur) :
    ∃ g', swapSingle g cur new = some g' ∧ WellFormed g' ∧ SameFunction g I g' I := by
  obtain ⟨g', h, M, hi, ho⟩ := swapSingle_result wf (cur := cur) hin hnew
  have he : e ∈ g.edges ∧ e.dst = cur := by
    have : e ∈ edgesInto g cur := by rw [hin]; exact List.mem_singleton.2 rfl
    have := List.mem_filter.1 this
    exact ⟨this.1, by simpa using this.2⟩
  have hcur : cur ∈ g.nodes := he.2 ▸ wf.dst e he.1
  have hci : cur ∉ g.inputs := by have := wf.insFree e he.1; rwa [he.2] at this
  have hmap : g.inputs = g.inputs.map (rn cur new) := by
    conv_lhs => rw [← List.map_id g.inputs]
    apply List.map_congr_left
    intro a ha
    have : a ≠ cur := fun h => hci (h ▸ ha)
    simp [rn, this]
  have hnc : new ≠ cur := fun h => hnew (h ▸ hcur)
  have ho' : g'.outputs = g.outputs.map (fun o => (rn cur new o.1, o.2)) := by
    rw [ho]
    rcases hout with h1 | h1
    · rw [if_neg (not_output h1)]
      conv_lhs => rw [← List.map_id g.outputs]
      apply List.map_congr_left
      intro o ho
      have : o.1 ≠ cur := fun h => h1 ⟨o.2, by rw [← h]; exact ho⟩
      simp [rn, this]
    · rw [if_pos (by rw [h1]; simp), h1]; simp [rn]
  have hwf : WellFormed g' := by
    refine M.wf wf hcur hnew (List.Perm.of_eq (hi.trans hmap)) ?_
    intro o hoo
    rw [ho'] at hoo
    obtain ⟨o', h2, rfl⟩ := List.mem_map.1 hoo
    rw [M.mem wf hnew]
    simp only [rn]
    split
    · exact ⟨Or.inl rfl, hnc⟩
    · rename_i h1; exact ⟨Or.inr (wf.outs _ h2), h1⟩
  refine ⟨g', h, hwf, ?_⟩
  refine same_of_forward wf hwf ?_
  intro env v hv
  obtain ⟨v', hv', h1, h2⟩ := M.forward wf hcur hnew (hi.trans hmap) hI hv
  refine ⟨v', hv', ?_⟩
  rw [ho', List.map_map]
  apply List.map_congr_left
  intro o hoo
  simp only [Function.comp, rn]
  split
  · rename_i h3; rw [h1, h3]
  · rw [h2 _ (fun h3 => hnew (h3 ▸ wf.outs o hoo))]

example : WellFormed chain4 ∧ edgesInto chain4 1 = [⟨0, 1, 0, 0⟩] ∧ ¬ IsOutput chain4 1 ∧
    swapSingle chain4 1 9 = some
      { nodes := [0, 2, 3, 9], inputs := [0], outputs := [(3, 0), (2, 0)],
        edges := [⟨2, 3, 0, 0⟩, ⟨0, 3, 0, 1⟩, ⟨0, 9, 0, 0⟩, ⟨9, 2, 0, 0⟩] } :=
  ⟨wf_of_check (rank := id) (by decide), by decide, by simp [IsOutput, chain4], by decide⟩

/-- **C70 is violated** for a model with several outputs one of which is the layer that is replaced:
all other outputs disappear. -/
theorem C70_outputs_dropped_violated :
    ∃ g', WellFormed chain4 ∧ swapSingle chain4 2 9 = some g' ∧
      chain4.outputs = [(3, 0), (2, 0)] ∧ g'.outputs = [(9, 0)] ∧
      ∀ I : Interp Nat Int, ¬ SameFunction chain4 I g' I := by
  refine ⟨{ nodes := [0, 1, 3, 9], inputs := [0], outputs := [(9, 0)],
            edges := [⟨0, 1, 0, 0⟩, ⟨0, 3, 0, 1⟩, ⟨1, 9, 0, 0⟩, ⟨9, 3, 0, 0⟩] },
    wf_of_check (rank := id) (by decide), by decide, rfl, rfl, ?_⟩
  intro I
  refine not_same (rank := id) (rank' := fun n => if n = 9 then 2 else n) (fun _ => 0) 4 (by decide)
    (by decide) (by decide) (by decide) ?_
  simp [run, chain4]

/-! ### C71: a layer split into two -/

/-- **C71**: a layer is replaced by two layers in sequence (separable convolutions), and the model
computes the same function when the two compute together what the layer did. -/
theorem C71_split {g : Gr N} (wf : WellFormed g) {cur f s : N} (hcur : cur ∈ g.nodes)
    (hf : f ∉ g.nodes) (hs : s ∉ g.nodes) (hfs : f ≠ s) (hci : cur ∉ g.inputs)
    {I : Interp N V} (hI : ∀ args k, I s [I f args 0] k = I cur args k) :
    ∃ g', splitNode g cur f s = some g' ∧ WellFormed g' ∧ SameFunction g I g' I ∧
      (∀ m, m ∈ g'.nodes ↔ (m = f ∨ m = s ∨ m ∈ g.nodes) ∧ m ≠ cur) := by
  obtain ⟨g', h, M⟩ := splitNode_result wf hcur hf hs hfs hci
  exact ⟨g', h, M.wf wf hcur hf hs hfs hci, M.same wf hcur hf hs hfs hci hI, M.mem wf hf hs hfs⟩

example : WellFormed diamond ∧ 1 ∈ diamond.nodes ∧ 1 ∉ diamond.inputs ∧
    splitNode diamond 1 8 9 = some
      { nodes := [0, 2, 3, 8, 9], inputs := [0], outputs := [(3, 0), (9, 0)],
        edges := [⟨0, 2, 0, 0⟩, ⟨2, 3, 0, 1⟩, ⟨8, 9, 0, 0⟩, ⟨0, 8, 0, 0⟩, ⟨9, 3, 0, 0⟩] } :=
  ⟨wf_of_check (rank := id) (by decide), by decide, by decide, by decide⟩

/-- **C71**: a layer with one output keeps part of its function and a new layer after it takes the
rest (activation functions inside a layer, batch normalisation reconstruction); consumers and
outputs move to the new layer, and the model computes the same function. -/
theorem C71_append {g : Gr N} (wf : WellFormed g) {cur new : N} (hcur : cur ∈ g.nodes)
    (hnew : new ∉ g.nodes) (hci : cur ∉ g.inputs)
    (hone : (∀ r ∈ edgesFrom g cur, r.si = 0) ∧ ∀ k, (cur, k) ∈ g.outputs → k = 0)
    {I I' : Interp N V} (hsame : ∀ m ∈ g.nodes, m ≠ cur → I' m = I m)
    (hI : ∀ args, I' new [I' cur args 0] 0 = I cur args 0) :
    ∃ g', appendAfter g cur new = some g' ∧ WellFormed g' ∧ SameFunction g I g' I' ∧
      g'.nodes = g.nodes ++ [new] := by
  obtain ⟨g', h, M⟩ := appendAfter_result wf hcur hnew
  refine ⟨g', h, M.wf wf hcur hnew, M.same wf hcur hnew hci ?_ ?_ hsame hI, M.nodes⟩
  · intro r hr hrs
    exact hone.1 r (List.mem_filter.2 ⟨hr, by simp [hrs]⟩)
  · rintro ⟨m, k⟩ ho rfl
    exact hone.2 k ho

example : WellFormed diamond ∧ (∀ r ∈ edgesFrom diamond 1, r.si = 0) ∧
    (∀ k, (1, k) ∈ diamond.outputs → k = 0) ∧ appendAfter diamond 1 9 = some
      { nodes := [0, 1, 2, 3, 9], inputs := [0], outputs := [(3, 0), (9, 0)],
        edges := [⟨0, 1, 0, 0⟩, ⟨0, 2, 0, 0⟩, ⟨2, 3, 0, 1⟩, ⟨9, 3, 0, 0⟩, ⟨1, 9, 0, 0⟩] } :=
  ⟨wf_of_check (rank := id) (by decide), by decide, by simp [diamond], by decide⟩

end MCT.Graph
