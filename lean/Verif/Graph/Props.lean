/-
Properties of the graph edits: C29-C31, the graph part of C32, C33 and C36, and C66-C71.

Every theorem about a substitution has the same shape: on every well formed graph, whatever its
layers compute, the edit succeeds, leaves a well formed graph, and the graph it leaves is the same
function of the model inputs.  What the theorem assumes about the layers is what the substitution
claims about them (the identity layer is the identity, the merged layer is the composition, ...);
that the weights computed by the code meet it is proved in `Verif/Subst`.
-/
import Verif.Graph.Witness

namespace MCT.Graph
open MCT.GraphSpec

set_option linter.unusedSectionVars false
set_option linter.unusedVariables false

variable {N V : Type*} [DecidableEq N]

theorem not_output {g : Gr N} {n : N} (h : ¬ IsOutput g n) : n ∉ g.outputs.map Prod.fst := by
  intro h'
  obtain ⟨o, ho, rfl⟩ := List.mem_map.1 h'
  exact h ⟨o.2, ho⟩

/-! ### The meaning of a graph -/

/-- A well formed graph computes exactly one list of outputs from every list of inputs, whatever its
layers compute: `SameFunction` compares total functions. -/
theorem one_result {g : Gr N} (wf : WellFormed g) (I : Interp N V) (env : Nat → V) :
    ∃ outs, Computes g I env outs ∧ ∀ outs', Computes g I env outs' → outs' = outs := by
  obtain ⟨v, hv⟩ := valuation_exists wf I env
  exact ⟨_, ⟨v, hv, rfl⟩, fun o' h => computes_unique wf h ⟨v, hv, rfl⟩⟩

/-- A branch and a join: 0 → 1, 0 → 2, (1, 2) → 3. -/
def diamond : Gr Nat :=
  { nodes := [0, 1, 2, 3], edges := [⟨0, 1, 0, 0⟩, ⟨0, 2, 0, 0⟩, ⟨2, 3, 0, 1⟩, ⟨1, 3, 0, 0⟩],
    inputs := [0], outputs := [(3, 0), (1, 0)] }

/-- Layers on numbers: 3 subtracts its second input from its first, 1 doubles, the others add their
own number. -/
def someLayers : Interp Nat Int := fun n args k =>
  if n = 3 then args.getD 0 0 - args.getD 1 0
  else if n = 1 then 2 * args.getD 0 0 else args.getD 0 0 + n + k

example : WellFormed diamond := wf_of_check (rank := id) (by decide)
/-- The order of the arguments is that of the input indices, not of the edges: 2·5 − (5+2). -/
example : Computes diamond someLayers (fun _ => 5) [3, 10] := by
  have := run_computes (rank := id) (g := diamond) (by decide) someLayers (fun _ => 5) 4 (by decide)
  simpa [run, evalAt, arguments, incoming, diamond, someLayers, List.mergeSort,
    List.MergeSort.Internal.splitInTwo] using this

/-! ### C29: removing an identity layer -/

/-- **C29**, as far as it holds: an identity layer that reads the FIRST output of the layer before
it is removed, and the model computes the same function. Every layer semantics, every graph, any
number of consumers, the identity layer may be an output of the model. The condition on the output
index is needed: see `C29_second_output_violated`. -/
theorem C29_identity_removal_partial {g : Gr N} (wf : WellFormed g) {n : N} {e : Edge N}
    (hin : edgesInto g n = [e]) (hsi : e.si = 0) {I : Interp N V} (hI : ∀ x, I n [x] 0 = x)
    (hone : (∀ r ∈ edgesFrom g n, r.si = 0) ∧ ∀ k, (n, k) ∈ g.outputs → k = 0) :
    ∃ g', removeIdentity g n = some g' ∧ WellFormed g' ∧ SameFunction g I g' I ∧
      n ∉ g'.nodes ∧ (∀ m ∈ g.nodes, m ≠ n → m ∈ g'.nodes) := by
  have hin' : inEdges g n = [e] := hin
  obtain ⟨g', R, h, hp, hR, hn', hi', ho', he'⟩ := removeIdentity_result wf hin'
  have hed : e.dst = n := by
    have : e ∈ edgesInto g n := by rw [hin]; exact List.mem_singleton.2 rfl
    simpa using (List.mem_filter.1 this).2
  refine ⟨g', h, removeIdentity_wf wf hp hR hed hn' hi' ho' he',
    removeIdentity_same wf hin' hp hR hed hn' hi' ho' he' hI hsi ?_ ?_, ?_, ?_⟩
  · intro r hr hrs
    exact hone.1 r (List.mem_filter.2 ⟨hr, by simp [hrs]⟩)
  · rintro ⟨m, k⟩ ho rfl
    exact hone.2 k ho
  · rw [hn']; exact fun h => (wf.nodes.mem_erase_iff.1 h).1 rfl
  · intro m hm hmn
    rw [hn']; exact wf.nodes.mem_erase_iff.2 ⟨hmn, hm⟩

/-- An identity layer with more than one input, or none, is left alone. -/
theorem C29_other_left_alone {g : Gr N} {n : N} (h : (edgesInto g n).length ≠ 1) :
    removeIdentity g n = some g := by
  rw [removeIdentity]
  have : (prevNodes g n).length ≠ 1 := by simpa [prevNodes, inEdges, edgesInto] using h
  rcases hp : prevNodes g n with _ | ⟨a, _ | ⟨b, l⟩⟩
  · rfl
  · rw [hp] at this; exact absurd rfl this
  · rfl

/-- The hypotheses on a graph where the identity layer 1 has two consumers and is an output. -/
def withIdentity : Gr Nat :=
  { nodes := [0, 1, 2, 3], edges := [⟨0, 1, 0, 0⟩, ⟨1, 2, 0, 0⟩, ⟨1, 3, 0, 1⟩, ⟨2, 3, 0, 0⟩],
    inputs := [0], outputs := [(3, 0), (1, 0)] }

example : WellFormed withIdentity ∧ edgesInto withIdentity 1 = [⟨0, 1, 0, 0⟩] ∧
    (∀ r ∈ edgesFrom withIdentity 1, r.si = 0) ∧ (∀ k, (1, k) ∈ withIdentity.outputs → k = 0) :=
  ⟨wf_of_check (rank := id) (by decide), by decide, by decide, by simp [withIdentity]⟩
example : removeIdentity withIdentity 1 = some
    { nodes := [0, 2, 3], edges := [⟨2, 3, 0, 0⟩, ⟨0, 2, 0, 0⟩, ⟨0, 3, 0, 1⟩], inputs := [0],
      outputs := [(3, 0), (0, 0)] } := by decide

/-- A layer 1 with two outputs, an identity layer 2 on the second of them, a consumer 3. -/
def splitThenIdentity : Gr Nat :=
  { nodes := [0, 1, 2, 3], edges := [⟨0, 1, 0, 0⟩, ⟨1, 2, 1, 0⟩, ⟨2, 3, 0, 0⟩],
    inputs := [0], outputs := [(3, 0)] }

def splitLayers : Interp Nat Int := fun n args k =>
  if n = 1 then args.getD 0 0 + k else args.getD 0 0

/-- **C29 is violated**: after removing an identity layer that reads the second output of a layer,
its consumers read the first output, and the model computes something else. -/
theorem C29_second_output_violated :
    ∃ g', WellFormed splitThenIdentity ∧ removeIdentity splitThenIdentity 2 = some g' ∧
      (∀ x k, splitLayers 2 [x] k = x) ∧
      ¬ SameFunction splitThenIdentity splitLayers g' splitLayers := by
  refine ⟨{ nodes := [0, 1, 3], edges := [⟨0, 1, 0, 0⟩, ⟨1, 3, 0, 0⟩], inputs := [0],
            outputs := [(3, 0)] }, wf_of_check (rank := id) (by decide), by decide,
    fun x k => by simp [splitLayers], ?_⟩
  refine not_same (rank := id) (rank' := id) (fun _ => 0) 4 (by decide) (by decide) (by decide)
    (by decide) ?_
  simp [run, evalAt, arguments, incoming, splitThenIdentity, splitLayers]

/-! ### C30: replacing a node and moving its edges -/

/-- **C30**, the connections: moving the outgoing edges of a node to another one keeps every other
edge and both indices of the moved ones, with parallel edges, and changes nothing else. -/
theorem C30_reconnect_out {g : Gr N} (wf : WellFormed g) {cur new : N} (hne : cur ≠ new)
    (hnew : new ∈ g.nodes) :
    ∃ g', reconnectOut g cur new = some g' ∧
      g'.edges.Perm (g.edges.map (fun e => { e with src := renamed cur new e.src })) ∧
      g'.nodes = g.nodes ∧ g'.inputs = g.inputs ∧ g'.outputs = g.outputs := by
  obtain ⟨E, h, hp⟩ := reconnectOut_perm (g := g) hne hnew wf.dst
  refine ⟨_, h, hp.trans (List.Perm.of_eq (List.map_congr_left ?_)), rfl, rfl, rfl⟩
  rintro ⟨s, d, i, j⟩ _
  simp only [moveSrc, renamed]
  split <;> simp_all

/-- **C30**, the connections: the same for the incoming edges. -/
theorem C30_reconnect_in {g : Gr N} (wf : WellFormed g) {cur new : N} (hne : cur ≠ new)
    (hnew : new ∈ g.nodes) :
    ∃ g', reconnectIn g cur new = some g' ∧
      g'.edges.Perm (g.edges.map (fun e => { e with dst := renamed cur new e.dst })) ∧
      g'.nodes = g.nodes ∧ g'.inputs = g.inputs ∧ g'.outputs = g.outputs := by
  obtain ⟨E, h, hp⟩ := reconnectIn_perm (g := g) hne hnew wf.src
  refine ⟨_, h, hp.trans (List.Perm.of_eq (List.map_congr_left ?_)), rfl, rfl, rfl⟩
  rintro ⟨s, d, i, j⟩ _
  simp only [moveDst, renamed]
  split <;> simp_all

/-- **C30**: replacing a node by a new one succeeds on every graph; every edge is kept with its
indices, with the new node in the place of the old one; the outputs keep their order. -/
theorem C30_replace_connections {g : Gr N} (wf : WellFormed g) {cur new : N} (hcur : cur ∈ g.nodes)
    (hnew : new ∉ g.nodes) :
    ∃ g', replaceNode g cur new = some g' ∧
      g'.edges.Perm (g.edges.map (fun e =>
        { e with src := renamed cur new e.src, dst := renamed cur new e.dst })) ∧
      g'.outputs = g.outputs.map (fun o => (renamed cur new o.1, o.2)) ∧
      g'.inputs.Perm (g.inputs.map (renamed cur new)) ∧
      (∀ m, m ∈ g'.nodes ↔ m = new ∨ (m ∈ g.nodes ∧ m ≠ cur)) := by
  obtain ⟨g', h, M, ho, hi⟩ := replaceNode_result wf hcur hnew
  refine ⟨g', h, M.edges.trans (List.Perm.of_eq (List.map_congr_left ?_)), ho, ?_, ?_⟩
  · rintro ⟨s, d, i, j⟩ _
    by_cases h1 : s = cur <;> by_cases h2 : d = cur <;> simp [moveSrc, moveDst, renamed, h1, h2]
  · have hmap : ∀ l : List N, cur ∉ l → l.map (renamed cur new) = l := by
      intro l hl
      conv_rhs => rw [← List.map_id l]
      apply List.map_congr_left
      intro a ha
      have : a ≠ cur := fun h => hl (h ▸ ha)
      simp [renamed, this]
    rw [hi]
    by_cases hci : cur ∈ g.inputs
    · rw [if_pos hci]
      have h1 : (g.inputs.map (renamed cur new)).Perm (new :: g.inputs.erase cur) := by
        have h2 := (List.perm_cons_erase hci).map (renamed cur new)
        refine h2.trans ?_
        rw [List.map_cons, hmap _ (fun h => (wf.insNodup.mem_erase_iff.1 h).1 rfl)]
        simp only [renamed, if_true]
        exact List.Perm.refl _
      exact List.perm_append_comm.trans h1.symm
    · rw [if_neg hci, hmap _ hci]
  · intro m
    rw [M.mem wf hnew m]
    constructor
    · rintro ⟨h1 | h1, h2⟩
      · exact Or.inl h1
      · exact Or.inr ⟨h1, h2⟩
    · rintro (h1 | ⟨h1, h2⟩)
      · exact ⟨Or.inl h1, fun h => hnew (h1 ▸ h ▸ hcur)⟩
      · exact ⟨Or.inr h1, h2⟩

/-- **C30**, as far as it holds: replacing a node that is not a model input, or is the LAST one,
keeps the order of the inputs, and the model computes the same function when the new layer computes
what the old one did. For the other inputs see `C30_input_order_violated`. -/
theorem C30_replace_function_partial {g : Gr N} (wf : WellFormed g) {cur new : N}
    (hcur : cur ∈ g.nodes) (hnew : new ∉ g.nodes)
    (hlast : cur ∉ g.inputs ∨ ∃ l, g.inputs = l ++ [cur]) {I : Interp N V} (hI : I new = I cur) :
    ∃ g', replaceNode g cur new = some g' ∧ WellFormed g' ∧
      g'.inputs = g.inputs.map (renamed cur new) ∧ SameFunction g I g' I := by
  obtain ⟨g', h, M, ho, hi⟩ := replaceNode_result wf hcur hnew
  have hmap : ∀ l : List N, cur ∉ l → l.map (renamed cur new) = l := by
    intro l hl
    conv_rhs => rw [← List.map_id l]
    apply List.map_congr_left
    intro a ha
    have : a ≠ cur := fun h => hl (h ▸ ha)
    simp [renamed, this]
  have hin : g'.inputs = g.inputs.map (renamed cur new) := by
    rw [hi]
    rcases hlast with hci | ⟨l, hl⟩
    · rw [if_neg hci, hmap _ hci]
    · have hnl : cur ∉ l := by
        have := wf.insNodup
        rw [hl, List.nodup_append] at this
        intro hm
        exact this.2.2 cur hm cur (by simp) rfl
      rw [if_pos (by rw [hl]; simp), hl, List.erase_append_right _ hnl, List.map_append, hmap _ hnl]
      simp [renamed]
  have hwf : WellFormed g' := by
    refine M.wf wf hcur hnew (List.Perm.of_eq hin) ?_
    intro o ho'
    rw [ho] at ho'
    obtain ⟨o', ho'', rfl⟩ := List.mem_map.1 ho'
    rw [M.mem wf hnew]
    simp only [rn]
    split
    · exact ⟨Or.inl rfl, fun h => hnew (h ▸ hcur)⟩
    · rename_i h1; exact ⟨Or.inr (wf.outs _ ho''), h1⟩
  refine ⟨g', h, hwf, hin, ?_⟩
  refine same_of_forward wf hwf ?_
  intro env v hv
  obtain ⟨v', hv', h1, h2⟩ := M.forward wf hcur hnew hin hI hv
  refine ⟨v', hv', ?_⟩
  rw [ho, List.map_map]
  apply List.map_congr_left
  intro o ho'
  simp only [Function.comp, rn]
  split
  · rename_i h3; rw [h1, h3]
  · rw [h2 _ (fun h3 => hnew (h3 ▸ wf.outs o ho'))]

/-- Two inputs and a layer that reads both. -/
def twoInputs : Gr Nat :=
  { nodes := [0, 1, 2], edges := [⟨0, 2, 0, 0⟩, ⟨1, 2, 0, 1⟩], inputs := [0, 1],
    outputs := [(2, 0)] }

example : WellFormed twoInputs ∧ (1 ∉ twoInputs.inputs ∨ ∃ l, twoInputs.inputs = l ++ [1]) ∧
    9 ∉ twoInputs.nodes ∧ replaceNode twoInputs 1 9 = some
      { nodes := [0, 2, 9], edges := [⟨0, 2, 0, 0⟩, ⟨9, 2, 0, 1⟩], inputs := [0, 9],
        outputs := [(2, 0)] } :=
  ⟨wf_of_check (rank := id) (by decide), Or.inr ⟨[0], rfl⟩, by decide, by decide⟩

/-- **C30 is violated**: replacing the first of two model inputs moves it to the end of the list of
inputs, so the model reads its inputs in the other order. -/
theorem C30_input_order_violated :
    ∃ (I : Interp Nat Int) (g' : Gr Nat), WellFormed twoInputs ∧ I 9 = I 0 ∧
      replaceNode twoInputs 0 9 = some g' ∧
      g'.inputs ≠ twoInputs.inputs.map (renamed 0 9) ∧ ¬ SameFunction twoInputs I g' I := by
  refine ⟨fun n args _ => if n = 2 then args.getD 0 0 - args.getD 1 0 else 0,
    { nodes := [1, 2, 9], edges := [⟨1, 2, 0, 1⟩, ⟨9, 2, 0, 0⟩], inputs := [1, 9],
      outputs := [(2, 0)] }, wf_of_check (rank := id) (by decide), rfl, by decide, by decide, ?_⟩
  refine not_same (rank := id) (rank' := fun n => if n = 9 then 0 else n) (fun k => k) 3 (by decide)
    (by decide) (by decide) (by decide) ?_
  simp [run, evalAt, arguments, incoming, twoInputs, List.mergeSort,
    List.MergeSort.Internal.splitInTwo, List.idxOf, List.findIdx, List.findIdx.go]

/-- **C30**: a node can be removed only when no connection reads or feeds it; the rest of the graph stays,
and a model output (input) is removed only when new outputs (inputs) are given. -/
theorem C30_remove_checked {g g' : Gr N} {n : N} {i : Option (List N)} {o : Option (List (N × Nat))}
    (h : removeNode g n i o = some g') :
    edgesInto g n = [] ∧ edgesFrom g n = [] ∧ n ∈ g.nodes ∧ g'.edges = g.edges ∧ g'.nodes = g.nodes.erase n ∧
      (IsOutput g n → o = some g'.outputs) ∧ (¬ IsOutput g n → g'.outputs = g.outputs) ∧
      (n ∈ g.inputs → i = some g'.inputs) ∧ (n ∉ g.inputs → g'.inputs = g.inputs) := by
  have hio : n ∈ g.outputs.map Prod.fst ↔ IsOutput g n := by
    simp [IsOutput]
  unfold removeNode at h
  simp only [Option.bind_eq_bind] at h
  by_cases h1 : n ∈ g.outputs.map Prod.fst
  · rw [if_pos h1] at h
    cases o with
    | none => simp at h
    | some o =>
      simp only [Option.map_some, Option.bind_some] at h
      by_cases h2 : n ∈ g.inputs
      · rw [if_pos h2] at h
        cases i with
        | none => simp at h
        | some i =>
          simp only [Option.map_some, Option.bind_some] at h
          split at h
          · rename_i hc
            obtain rfl : _ = g' := by simpa using h
            simp only [List.length_eq_zero_iff] at hc
            exact ⟨hc.1, hc.2.1, hc.2.2, rfl, rfl, fun _ => rfl, fun hh => absurd (hio.mp h1) hh,
              fun _ => rfl, fun hh => absurd h2 hh⟩
          · simp at h
      · rw [if_neg h2] at h
        try simp only [Option.bind_some] at h
        split at h
        · rename_i hc
          obtain rfl : _ = g' := by simpa using h
          simp only [List.length_eq_zero_iff] at hc
          exact ⟨hc.1, hc.2.1, hc.2.2, rfl, rfl, fun _ => rfl, fun hh => absurd (hio.mp h1) hh,
            fun hh => absurd hh h2, fun _ => rfl⟩
        · simp at h
  · rw [if_neg h1] at h
    simp only [Option.bind_some] at h
    by_cases h2 : n ∈ g.inputs
    · rw [if_pos h2] at h
      cases i with
      | none => simp at h
      | some i =>
        simp only [Option.map_some, Option.bind_some] at h
        split at h
        · rename_i hc
          obtain rfl : _ = g' := by simpa using h
          simp only [List.length_eq_zero_iff] at hc
          exact ⟨hc.1, hc.2.1, hc.2.2, rfl, rfl, fun hh => absurd (hio.mpr hh) h1, fun _ => rfl,
            fun _ => rfl, fun hh => absurd h2 hh⟩
        · simp at h
    · rw [if_neg h2] at h
      try simp only [Option.bind_some] at h
      split at h
      · rename_i hc
        obtain rfl : _ = g' := by simpa using h
        simp only [List.length_eq_zero_iff] at hc
        exact ⟨hc.1, hc.2.1, hc.2.2, rfl, rfl, fun hh => absurd (hio.mpr hh) h1, fun _ => rfl,
          fun hh => absurd hh h2, fun _ => rfl⟩
      · simp at h

theorem addInEdges_edges (g : Gr N) (new : N) (k : Nat) (l : List (N × Nat)) :
    (addInEdges g new k l).edges = g.edges ++ l.mapIdx (fun i p => ⟨p.1, new, p.2, k + i⟩) ∧
    (addInEdges g new k l).inputs = g.inputs ∧ (addInEdges g new k l).outputs = g.outputs := by
  induction l generalizing g k with
  | nil => simp [addInEdges]
  | cons p l ih =>
    obtain ⟨n, si⟩ := p
    obtain ⟨h1, h2, h3⟩ := ih (addEdge g ⟨n, new, si, k⟩) (k + 1)
    have he : ∀ m, (addNode g m).edges = g.edges ∧ (addNode g m).inputs = g.inputs ∧
        (addNode g m).outputs = g.outputs := by
      intro m; unfold addNode; split <;> simp
    have he2 : ∀ m m', (addNode (addNode g m) m').edges = g.edges ∧
        (addNode (addNode g m) m').inputs = g.inputs ∧ (addNode (addNode g m) m').outputs = g.outputs := by
      intro m m'
      generalize hg : addNode g m = g1
      have a1 := he m
      rw [hg] at a1
      unfold addNode
      split <;> simp [a1]
    simp only [addInEdges]
    rw [h1, h2, h3]
    refine ⟨?_, (he2 _ _).2.1, (he2 _ _).2.2⟩
    simp only [addEdge, (he2 _ _).1, List.mapIdx_cons, List.append_assoc, List.cons_append, List.nil_append,
      Nat.add_zero]
    congr 2
    apply congrArg (fun f => List.mapIdx f l)
    funext i p
    congr 1
    omega

/-- **C30**: a node added with its inputs reads, as input `i`, the given output (by default the first) of the
`i`-th given node; other connections stay. A list of indices of another length is refused. -/
theorem C30_add_with_inputs {g : Gr N} {new : N} (ins : List N) (idx : List Nat) :
    (idx ≠ [] → idx.length ≠ ins.length → addNodeWithInEdges g new ins idx = none) ∧
    (idx.length = ins.length → ∃ g', addNodeWithInEdges g new ins idx = some g' ∧
      g'.edges = g.edges ++ (ins.zip idx).mapIdx (fun i p => ⟨p.1, new, p.2, i⟩) ∧
      g'.inputs = g.inputs ∧ g'.outputs = g.outputs) ∧
    (∃ g', addNodeWithInEdges g new ins [] = some g' ∧
      g'.edges = g.edges ++ ins.mapIdx (fun i n => ⟨n, new, 0, i⟩) ∧
      g'.inputs = g.inputs ∧ g'.outputs = g.outputs) := by
  have he : (addNode g new).edges = g.edges ∧ (addNode g new).inputs = g.inputs ∧
      (addNode g new).outputs = g.outputs := by
    unfold addNode; split <;> simp
  refine ⟨?_, ?_, ?_⟩
  · intro h1 h2
    unfold addNodeWithInEdges
    simp only
    rw [if_neg (fun hh => h1 (List.length_eq_zero_iff.mp hh)), if_pos h2]
  · intro h
    unfold addNodeWithInEdges
    simp only
    have : (if idx.length = 0 then List.replicate ins.length 0 else idx) = idx := by
      split
      · rename_i h0
        rw [← h, h0, List.length_eq_zero_iff.mp h0]; rfl
      · rfl
    rw [this, if_neg (fun hh => hh h)]
    obtain ⟨h1, h2, h3⟩ := addInEdges_edges (addNode g new) new 0 (ins.zip idx)
    refine ⟨_, rfl, ?_, h2.trans he.2.1, h3.trans he.2.2⟩
    rw [h1, he.1]
    simp
  · unfold addNodeWithInEdges
    simp only [List.length_nil, if_true, List.length_replicate, ne_eq, not_true_eq_false, if_false]
    obtain ⟨h1, h2, h3⟩ := addInEdges_edges (addNode g new) new 0 (ins.zip (List.replicate ins.length 0))
    refine ⟨_, rfl, ?_, h2.trans he.2.1, h3.trans he.2.2⟩
    rw [h1, he.1]
    congr 1
    apply List.ext_getElem
    · simp
    · intro i h1 h2
      simp

example : (addNodeWithInEdges twoInputs 9 [0, 1] [0, 2]).map Gr.edges =
    some (twoInputs.edges ++ [⟨0, 9, 0, 0⟩, ⟨1, 9, 2, 1⟩]) := by decide

/-! ### C31: equality of edges -/

/-- **C31**, what the comparison tests: the sink index of the other edge is compared with the SOURCE
index of this one, and its own sink index plays no role. -/
theorem C31_comparison (a b : Edge N) :
    Edge.pyEq a b = true ↔ b.src = a.src ∧ b.dst = a.dst ∧ b.si = a.si ∧ b.di = a.si := by
  simp only [Edge.pyEq, Bool.and_eq_true, decide_eq_true_eq]
  tauto

/-- **C31**, as far as it holds: on edges that use the same index at both ends, such as all edges of
a chain of one-input one-output layers, the comparison is equality. -/
theorem C31_equality_partial (a b : Edge N) (ha : a.si = a.di) (hb : b.si = b.di) :
    Edge.pyEq a b = true ↔ a = b := by
  rw [C31_comparison]
  constructor
  · rintro ⟨h1, h2, h3, h4⟩
    obtain ⟨s, d, i, j⟩ := a
    obtain ⟨s', d', i', j'⟩ := b
    simp only at *
    subst h1 h2 h3 ha
    rw [h4]
  · rintro rfl
    exact ⟨rfl, rfl, rfl, ha.symm⟩

example : Edge.pyEq (⟨0, 1, 2, 2⟩ : Edge Nat) ⟨0, 1, 2, 2⟩ = true := by decide

/-- **C31 is violated**: an edge with different indices does not equal itself, the comparison is not
symmetric, and it makes different edges equal. -/
theorem C31_equivalence_violated :
    (∀ e : Edge N, e.si ≠ e.di → Edge.pyEq e e = false) ∧
    (∃ a b : Edge Nat, Edge.pyEq a b = true ∧ Edge.pyEq b a = false ∧ a ≠ b) := by
  refine ⟨fun e h => ?_, ⟨⟨0, 1, 0, 1⟩, ⟨0, 1, 0, 0⟩, by decide, by decide, by decide⟩⟩
  rw [← Bool.not_eq_true, C31_comparison]
  exact fun h' => h h'.2.2.2.symm

end MCT.Graph
