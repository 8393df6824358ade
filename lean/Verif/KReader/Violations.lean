/- C111: models that are not read, or are read wrongly. -/
import Verif.KReader.Props

namespace MCT.KReader

open MCT.Graph (Edge)

variable {O V : Type}

/-! ### An example that is read -/

/-- Operations: 0 doubles, 1 adds, 2 gives quotient and remainder, 3 is positional. -/
def exInterp : ℕ → List ℕ → List ℕ
  | 0, xs => xs.map (2 * ·)
  | 1, xs => [xs.sum]
  | 2, xs => [xs.sum / 10, xs.sum % 10]
  | _, xs => [xs.foldl (fun a b => 10 * a + b) 0]

/-- Two inputs `x`, `y`; the outputs are `x / 10 + y` and `(x % 10) * 2`. -/
def exInner : KModel ℕ :=
  .mk [.mk 0 .input [0] [0], .mk 1 .input [1] [1], .mk 2 (.prim 2) [0] [2, 3], .mk 3 (.prim 0) [1] [4],
    .mk 4 (.prim 1) [2, 4] [5], .mk 5 (.prim 0) [3] [6]] [0, 1] [5, 6]

/-- A model around it that passes its inputs in the other order. -/
def exModel : KModel ℕ :=
  .mk [.mk 0 .input [0] [0], .mk 1 .input [1] [1], .mk 2 (.model exInner) [1, 0] [2, 3], .mk 3 (.prim 3) [3, 2] [4]]
    [0, 1] [4]

theorem mem_four {A : Type} {a b c d n : A} : n ∈ [a, b, c, d] ↔ n = a ∨ n = b ∨ n = c ∨ n = d := by simp

theorem exInner_ok : exInner.Ok := by
  unfold exInner
  rw [KModel.Ok]
  refine ⟨⟨by decide, ?_, ?_, ?_, by decide, ?_, ?_, ?_⟩, ⟨?_, ?_⟩, ?_⟩
  all_goals simp [KNode.ins, KNode.outs, KNode.op, KNode.layer, KOp.isInput, nodesOk, opOk, KModel.inputs, KModel.outputs]

theorem exModel_ok : exModel.Ok := by
  have h : Inner exInner := by
    refine ⟨?_, by decide, by decide⟩
    intro n hn i t hi ht
    simp only [exInner, KModel.nodes, KModel.inputs, List.mem_cons, List.not_mem_nil, or_false] at hn ht
    rcases hn with rfl | rfl | rfl | rfl | rfl | rfl <;> rcases i with _ | _ | i <;>
      simp [KNode.ins] at hi <;> omega
  have h2 := exInner_ok
  unfold exModel
  rw [KModel.Ok]
  refine ⟨⟨by decide, ?_, ?_, ?_, by decide, ?_, ?_, ?_⟩, ⟨?_, ?_⟩, ?_⟩
  · simp [KNode.ins, KNode.outs]
  · simp [KNode.ins, KNode.outs, KNode.op, KOp.isInput]
  · simp [KNode.outs, KNode.op, KOp.isInput]
  · simp [KNode.ins, KNode.outs, KNode.op, KOp.isInput]
  · simp [KNode.outs]
  · intro n hn m hm
    rcases mem_four.1 hn with rfl | rfl | rfl | rfl <;> simp [KNode.op] at hm
    subst hm
    exact ⟨rfl, rfl⟩
  · simp [KNode.ins]
  · simp [KNode.layer]
  · simp only [nodesOk, opOk, and_true, true_and]
    exact ⟨h2, h⟩

/-- The example is read, and gives `10 * (y / 10 + 2 * x) + 2 * (y % 10)`. -/
example : ∃ g, read exModel = some g ∧ (g.nodes.map (·.path)) = [[0], [1], [3], [2, 2], [2, 3], [2, 4], [2, 5]] ∧
    g.edges.length = 7 ∧ ∃ ys, g.Runs exInterp [3, 45] ys := by
  obtain ⟨g, h1, -, -, h2⟩ := C111_read_partial exModel exModel_ok
  refine ⟨g, h1, ?_⟩
  have h3 : (read exModel).map (fun g => (g.nodes.map (·.path), g.edges.length)) =
      some ([[0], [1], [3], [2, 2], [2, 3], [2, 4], [2, 5]], 7) := by decide +kernel
  rw [h1, Option.map_some, Option.some.injEq, Prod.mk.injEq] at h3
  refine ⟨h3.1, h3.2, [110], (h2 ℕ exInterp _ _).2 ?_⟩
  unfold exModel
  rw [KModel.Runs]
  refine ⟨fun t => [3, 45, 10, 10, 110].getD t 0, by decide, by decide, ?_⟩
  rw [nodesRun_iff]
  simp only [List.forall_mem_cons, List.not_mem_nil, false_imp_iff, implies_true, and_true, KNode.op, KNode.ins,
    KNode.outs]
  refine ⟨by simp [opRel], by simp [opRel], ?_, by simp [opRel]; decide⟩
  simp only [opRel]
  unfold exInner
  rw [KModel.Runs]
  refine ⟨fun t => [45, 3, 4, 5, 6, 10, 10].getD t 0, by decide, by decide, ?_⟩
  rw [nodesRun_iff]
  simp only [List.forall_mem_cons, List.not_mem_nil, false_imp_iff, implies_true, and_true, KNode.op, KNode.ins,
    KNode.outs]
  refine ⟨by simp [opRel], by simp [opRel], ?_, ?_, ?_, ?_⟩ <;> simp only [opRel] <;> decide

/-! ### An input that is not the first argument -/

theorem moveEdges_none {e x : Edge Path} (hx : x.di ≠ x.si) : ∀ {xs res : List (Edge Path)}, x ∈ xs →
    moveEdges e xs res = none
  | [], _, h => absurd h List.not_mem_nil
  | y :: l, res, h => by
    rcases List.mem_cons.1 h with rfl | h
    · rw [moveEdges]
      have : ∀ l : List (Edge Path), pyRemove false x l = none := by
        intro l
        induction l with
        | nil => rfl
        | cons z l ih =>
          have hz : Edge.pyEq z x = false := by
            unfold Edge.pyEq
            by_cases h1 : x.si = z.si
            · have : x.di ≠ z.si := fun h => hx (h.trans h1.symm)
              simp [this]
            · simp [h1]
          rw [pyRemove, hz, ih]
          simp
      rw [this]
      rfl
    · rw [moveEdges]
      cases pyRemove false y (res ++ [⟨e.src, y.dst, e.si, y.di⟩]) with
      | none => rfl
      | some r => exact moveEdges_none hx h

/-- C111 is false (the edges are not equal to themselves, edge.py 69-74): every nested model with an input that is read
as another than the first argument of a layer raises an error, if the input is connected. -/
theorem C111_second_argument_violated (M : Path) (g h : KGraph O) (e x : Edge Path) (he : e ∈ g.edges)
    (hM : e.dst = M) (hx : x ∈ h.edges) (hi : h.inputs[e.di]? = some x.src) (hd : x.di ≠ x.si) :
    merge M g h = none := by
  have h1 : ∀ (es : List (Edge Path)) (res : List (Edge Path)), e ∈ es → rewireIncoming h.inputs h.edges es res = none := by
    intro es
    induction es with
    | nil => intro res h; exact absurd h List.not_mem_nil
    | cons y l ih =>
      intro res h
      rw [rewireIncoming]
      rcases List.mem_cons.1 h with rfl | h
      · rw [moveEdges_none hd]
        · rfl
        · unfold inputEdges
          rw [hi]
          exact List.mem_filter.2 ⟨hx, by simp⟩
      · cases moveEdges y (inputEdges _ _ y) res with
        | none => rfl
        | some r =>
          rw [Option.bind_some]
          cases pyRemove true y r with
          | none => rfl
          | some r' => exact ih r' h
  have h2 : mergeEdges M g h = none := by
    unfold mergeEdges
    rw [h1 _ _ (List.mem_filter.2 ⟨he, by simpa using hM⟩)]
    rfl
  unfold merge
  rw [h2]
  cases mergeNodes M g h with
  | none => rfl
  | some ns =>
    rw [Option.bind_some]
    cases mergeOutputs M g h <;> rfl

/-- A residual block as a nested model: `Add()([double(x), x])`. -/
def resInner : KModel ℕ :=
  .mk [.mk 0 .input [0] [0], .mk 1 (.prim 0) [0] [1], .mk 2 (.prim 1) [1, 0] [2]] [0] [2]
/-- A model around it. -/
def resModel : KModel ℕ := .mk [.mk 0 .input [0] [0], .mk 1 (.model resInner) [0] [1]] [0] [1]

theorem mem_three {A : Type} {a b c n : A} : n ∈ [a, b, c] ↔ n = a ∨ n = b ∨ n = c := by simp
theorem mem_two {A : Type} {a b n : A} : n ∈ [a, b] ↔ n = a ∨ n = b := by simp

/-- The model is a Keras model and triples its input. -/
example : Level resModel.nodes resModel.inputs resModel.outputs ∧ Plain resModel.nodes ∧
    Level resInner.nodes resInner.inputs resInner.outputs ∧ Plain resInner.nodes ∧
    resModel.Runs exInterp [5] [15] := by
  refine ⟨⟨by decide, ?_, ?_, ?_, by decide, ?_, ?_, ?_⟩, ⟨?_, ?_⟩, ⟨by decide, ?_, ?_, ?_, by decide, ?_, ?_, ?_⟩,
    ⟨?_, ?_⟩, ?_⟩
  · simp [resModel, KModel.nodes, KNode.ins, KNode.outs]
  · simp [resModel, KModel.nodes, KModel.inputs, KNode.ins, KNode.outs, KNode.op, KOp.isInput]
  · simp [resModel, KModel.nodes, KModel.inputs, KNode.outs, KNode.op, KOp.isInput]
  · simp [resModel, KModel.nodes, KNode.ins, KNode.outs, KNode.op, KOp.isInput]
  · simp [resModel, KModel.nodes, KModel.outputs, KNode.outs]
  · intro n hn m hm
    rcases mem_two.1 hn with rfl | rfl <;> simp [KNode.op] at hm
    subst hm
    exact ⟨rfl, rfl⟩
  · simp [resModel, KModel.nodes, KNode.ins]
  · simp [resModel, KModel.nodes, KNode.layer]
  · simp [resInner, KModel.nodes, KNode.ins, KNode.outs]
  · simp [resInner, KModel.nodes, KModel.inputs, KNode.ins, KNode.outs, KNode.op, KOp.isInput]
  · simp [resInner, KModel.nodes, KModel.inputs, KNode.outs, KNode.op, KOp.isInput]
  · simp [resInner, KModel.nodes, KNode.ins, KNode.outs, KNode.op, KOp.isInput]
  · simp [resInner, KModel.nodes, KModel.outputs, KNode.outs]
  · intro n hn m hm
    rcases mem_three.1 hn with rfl | rfl | rfl <;> simp [KNode.op] at hm
  · simp [resInner, KModel.nodes, KNode.ins]
  · simp [resInner, KModel.nodes, KNode.layer]
  · unfold resModel
    rw [KModel.Runs]
    refine ⟨fun t => [5, 15].getD t 0, by decide, by decide, ?_⟩
    rw [nodesRun_iff]
    simp only [List.forall_mem_cons, List.not_mem_nil, false_imp_iff, implies_true, and_true, KNode.op, KNode.ins,
      KNode.outs]
    refine ⟨by simp [opRel], ?_⟩
    simp only [opRel]
    unfold resInner
    rw [KModel.Runs]
    refine ⟨fun t => [5, 10, 15].getD t 0, by decide, by decide, ?_⟩
    rw [nodesRun_iff]
    simp only [List.forall_mem_cons, List.not_mem_nil, false_imp_iff, implies_true, and_true, KNode.op, KNode.ins,
      KNode.outs]
    refine ⟨by simp [opRel], ?_, ?_⟩ <;> simp only [opRel] <;> decide

/-- C111 is false: the residual block is not read. -/
theorem C111_residual_violated : read resModel = none := by
  have : (read resModel).isNone = true := by decide +kernel
  exact Option.isNone_iff_eq_none.1 this

/-- With the arguments in the other order, `Add()([x, double(x)])`, it is read. -/
example : (read (.mk [.mk 0 .input [0] [0], .mk 1 (.model (.mk [.mk 0 .input [0] [0], .mk 1 (.prim 0) [0] [1],
    .mk 2 (.prim 1) [0, 1] [2]] [0] [2])) [0] [1]] [0] [1] : KModel ℕ)).isSome = true := by decide +kernel

/-! ### A layer that reads a tensor twice -/

/-- `f(x, y, x)`. -/
def twiceModel : KModel ℕ :=
  .mk [.mk 0 .input [0] [0], .mk 1 .input [1] [1], .mk 2 (.prim 3) [0, 1, 0] [2]] [0, 1] [2]

/-- C111 is false: the layer `f(x, y, x)` is read as `f(x, x, y)` (`list.index` finds the first index only,
connectivity_handler.py 182-198). -/
theorem C111_twice_violated : ∃ g, read twiceModel = some g ∧ twiceModel.Runs exInterp [1, 2] [121] ∧
    ∀ ys, g.Runs exInterp [1, 2] ys → ys = [112] := by
  have h0 : (read twiceModel).map (fun g => (g.inputs, g.outputs, g.nodes.map (fun n => (n.path, n.k)))) =
      some ([[0], [1]], [([2], 0)], [([0], 1), ([1], 1), ([2], 1)]) := by decide +kernel
  have h4 : (read twiceModel).map (fun g => inEdges g [2]) =
      some [⟨[0], [2], 0, 0⟩, ⟨[0], [2], 0, 0⟩, ⟨[1], [2], 0, 1⟩] := by decide +kernel
  have hn : (read twiceModel).map (fun g => g.nodes[2]?.map fun n => match n.op with
      | .prim o => o | _ => 0) = some (some 3) := by decide +kernel
  cases hg : read twiceModel with
  | none => rw [hg] at h0; cases h0
  | some g =>
    refine ⟨g, rfl, ?_, ?_⟩
    · unfold twiceModel
      rw [KModel.Runs]
      refine ⟨fun t => [1, 2, 121].getD t 0, by decide, by decide, ?_⟩
      rw [nodesRun_iff]
      simp only [List.forall_mem_cons, List.not_mem_nil, false_imp_iff, implies_true, and_true, KNode.op, KNode.ins,
        KNode.outs]
      refine ⟨by simp [opRel], by simp [opRel], ?_⟩
      simp only [opRel]
      decide
    · rintro ys ⟨τ, h1, h2, h3⟩
      rw [hg, Option.map_some, Option.some.injEq, Prod.mk.injEq, Prod.mk.injEq] at h0
      rw [hg, Option.map_some, Option.some.injEq] at hn h4
      obtain ⟨i1, i2, i3⟩ := h0
      cases hq : g.nodes[2]? with
      | none => rw [hq] at hn; cases hn
      | some n =>
        rw [hq, Option.map_some, Option.some.injEq] at hn
        have hp : (n.path, n.k) = ([2], 1) := by
          have : (g.nodes.map fun n => (n.path, n.k))[2]? = some (n.path, n.k) := by
            rw [List.getElem?_map, hq]; rfl
          rw [i3] at this
          exact (Option.some.inj this).symm
        rw [Prod.mk.injEq] at hp
        have := h3 n (List.mem_of_getElem? hq) (by rw [hp.1, i1]; decide)
        rw [hp.1, hp.2] at this
        unfold args at this
        rw [h4] at this
        rw [i1] at h1
        rw [i2] at h2
        simp only [List.map_cons, List.map_nil, List.cons.injEq, and_true] at h1 h2
        rw [← h2]
        cases ho : n.op with
        | input => rw [ho] at hn; cases hn
        | model m => rw [ho] at hn; cases hn
        | prim o =>
          rw [ho] at hn this
          subst hn
          simp only [nodeRel, opRel, List.range_succ, List.range_zero, List.nil_append, List.map_cons, List.map_nil,
            h1.1, h1.2, exInterp] at this
          rw [this]
          rfl

/-- C111 is false: a nested model that is called with the same tensor twice is not read. -/
theorem C111_same_input_violated : read (.mk [.mk 0 .input [0] [0], .mk 1 (.model (.mk [.mk 0 .input [0] [0],
    .mk 1 .input [1] [1], .mk 2 (.prim 0) [0] [2], .mk 3 (.prim 0) [1] [3], .mk 4 (.prim 1) [2, 3] [4]] [0, 1] [4]))
      [0, 0] [1]] [0] [1] : KModel ℕ) = none := by
  have : (read (.mk [.mk 0 .input [0] [0], .mk 1 (.model (.mk [.mk 0 .input [0] [0],
    .mk 1 .input [1] [1], .mk 2 (.prim 0) [0] [2], .mk 3 (.prim 0) [1] [3], .mk 4 (.prim 1) [2, 3] [4]] [0, 1] [4]))
      [0, 0] [1]] [0] [1] : KModel ℕ)).isNone = true := by decide +kernel
  exact Option.isNone_iff_eq_none.1 this

/-! ### A nested model that is used twice -/

/-- The loop fails at a model whose layer was seen. -/
theorem flattenNodes_none {p : Path} {l : ℕ} {m : KModel O} : ∀ {nodes : List (KNode O)} {i : ℕ} {seen : List ℕ}
    {g : KGraph O}, l ∈ seen → (∃ n ∈ nodes, n.layer = l ∧ n.op = .model m) → flattenNodes p i seen nodes g = none
  | [], _, _, _, _, h => by
    obtain ⟨n, hn, -⟩ := h
    exact absurd hn List.not_mem_nil
  | .mk l' op ins outs :: ns, i, seen, g, hl, h => by
    rw [flattenNodes]
    by_cases hc : l' = l ∧ op = .model m
    · obtain ⟨rfl, rfl⟩ := hc
      rw [flattenOp, if_pos (by simpa using hl)]
      rfl
    · cases flattenOp (p ++ [i]) (decide (l' ∈ seen)) op g with
      | none => rfl
      | some g' =>
        refine flattenNodes_none (m := m) (List.mem_cons_of_mem _ hl) ?_
        obtain ⟨n, hn, h1, h2⟩ := h
        rcases List.mem_cons.1 hn with rfl | hn
        · exact absurd ⟨h1, h2⟩ hc
        · exact ⟨n, hn, h1, h2⟩

/-- C111 is false: a model in which a nested model is used twice is not read, whatever else it contains. -/
theorem C111_reused_violated (m : KModel O) (pre mid post : List (KNode O)) (l : ℕ) (a b c d ins outs : List ℕ) :
    read (.mk (pre ++ .mk l (.model m) a b :: mid ++ .mk l (.model m) c d :: post) ins outs) = none := by
  have key : ∀ (pre : List (KNode O)) (i : ℕ) (seen : List ℕ) (g : KGraph O),
      flattenNodes [] i seen (pre ++ .mk l (.model m) a b :: mid ++ .mk l (.model m) c d :: post) g = none := by
    intro pre
    induction pre with
    | nil =>
      intro i seen g
      show flattenNodes [] i seen (.mk l (.model m) a b :: (mid ++ .mk l (.model m) c d :: post)) g = none
      rw [flattenNodes]
      cases flattenOp ([] ++ [i]) (decide (l ∈ seen)) (.model m) g with
      | none => rfl
      | some g' =>
        exact flattenNodes_none List.mem_cons_self ⟨.mk l (.model m) c d, by simp, rfl, rfl⟩
    | cons n pre ih =>
      intro i seen g
      cases n with
      | mk l' op x y =>
        show flattenNodes [] i seen (.mk l' op x y :: (pre ++ .mk l (.model m) a b :: mid ++
          .mk l (.model m) c d :: post)) g = none
        rw [flattenNodes]
        cases flattenOp ([] ++ [i]) (decide (l' ∈ seen)) op g with
        | none => rfl
        | some g' => exact ih (i + 1) (l' :: seen) g'
  unfold read
  rw [parse]
  cases buildGraph [] (pre ++ .mk l (.model m) a b :: mid ++ .mk l (.model m) c d :: post) ins outs with
  | none => rfl
  | some g => exact key pre 0 [] g

/-! ### A nested model that gives one of its inputs -/

/-- `x ↦ (x, double(x))`. -/
def passInner : KModel ℕ := .mk [.mk 0 .input [0] [0], .mk 1 (.prim 0) [0] [1]] [0] [0, 1]
/-- A model that adds both. -/
def passModel : KModel ℕ :=
  .mk [.mk 0 .input [0] [0], .mk 1 (.model passInner) [0] [1, 2], .mk 2 (.prim 1) [1, 2] [3]] [0] [3]

/-- C111 is false: the input layer of the nested model stays in the graph, without a value. -/
theorem C111_pass_violated : ∃ g, read passModel = some g ∧ passModel.Runs exInterp [5] [15] ∧
    ∀ (interp : ℕ → List V → List V) (xs ys : List V), ¬ g.Runs interp xs ys := by
  have h0 : (read passModel).map (fun g => (g.inputs, g.nodes.map (fun n => (n.path, n.op.isInput)))) =
      some ([[0]], [([0], true), ([2], false), ([1, 1], false), ([1, 0], true)]) := by decide +kernel
  cases hg : read passModel with
  | none => rw [hg] at h0; cases h0
  | some g =>
    refine ⟨g, rfl, ?_, ?_⟩
    · unfold passModel
      rw [KModel.Runs]
      refine ⟨fun t => [5, 5, 10, 15].getD t 0, by decide, by decide, ?_⟩
      rw [nodesRun_iff]
      simp only [List.forall_mem_cons, List.not_mem_nil, false_imp_iff, implies_true, and_true, KNode.op, KNode.ins,
        KNode.outs]
      refine ⟨by simp [opRel], ?_, ?_⟩
      · simp only [opRel]
        unfold passInner
        rw [KModel.Runs]
        refine ⟨fun t => [5, 10].getD t 0, by decide, by decide, ?_⟩
        rw [nodesRun_iff]
        simp only [List.forall_mem_cons, List.not_mem_nil, false_imp_iff, implies_true, and_true, KNode.op, KNode.ins,
          KNode.outs]
        refine ⟨by simp [opRel], ?_⟩
        simp only [opRel]
        decide
      · simp only [opRel]
        decide
    · rintro interp xs ys ⟨τ, -, -, h3⟩
      rw [hg, Option.map_some, Option.some.injEq, Prod.mk.injEq] at h0
      have hm : (([1, 0], true) : Path × Bool) ∈ g.nodes.map fun n => (n.path, n.op.isInput) := by
        rw [h0.2]; decide
      obtain ⟨n, hn, he⟩ := List.mem_map.1 hm
      rw [Prod.mk.injEq] at he
      have := h3 n hn (by rw [he.1, h0.1]; decide)
      cases ho : n.op with
      | input => rw [ho] at this; exact this
      | prim o => rw [ho] at he; cases he.2
      | model m => rw [ho] at he; cases he.2

end MCT.KReader
