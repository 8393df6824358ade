/- The model built from the graph read from a traced model computes what the traced model computes. -/
import Verif.Torch.Step
import Verif.Torch.Broken

namespace MCT.Torch

set_option linter.unusedVariables false
set_option linter.unusedSectionVars false
set_option linter.unusedSimpArgs false

variable {V C F K : Type} [DecidableEq K]

namespace TorchSpec

/-- Node `j` of the traced model has the output of node `i` among its arguments. -/
def Uses (g : Fx V C F K) (i j : ℕ) : Prop := ∃ op c, g.nodes[j]? = some op ∧ callOf op = some c ∧ i ∈ refs c

/-- A model output without consumer can be reached from `i`, through consumers. -/
inductive Leads (g : Fx V C F K) : ℕ → Prop
  | last (o : ℕ) (h : o ∈ g.outs) (hn : ∀ j, ¬ Uses g o j) : Leads g o
  | step (i j : ℕ) (h : Uses g i j) (hj : Leads g j) : Leads g i

/-- Nodes in an order in which the sources of edges come first. -/
def Topological (edges : List GEdge) (order : List ℕ) : Prop :=
  ∀ p j q, order = p ++ j :: q → ∀ e ∈ edges, e.dst = j → e.src ∈ p

end TorchSpec

open TorchSpec

/-! ### The values of the traced model -/

theorem fxEnv_spec (sem : Sem V C F K) (nodes : List (Op V C F K)) (inputs : List V) (n : ℕ) (vs : List V)
    (h : fxEnv sem nodes inputs n = some vs) :
    vs.length = n ∧ n ≤ nodes.length ∧ ∀ i op, i < n → nodes[i]? = some op →
      fxStep sem nodes inputs (fun k => (vs.take i)[k]?) i op = vs[i]? := by
  induction n generalizing vs with
  | zero =>
    simp only [fxEnv, Option.some.injEq] at h
    subst h
    simp
  | succ n ih =>
    simp only [fxEnv] at h
    split at h
    · rename_i vs' op hvs hop
      obtain ⟨h1, h2, h3⟩ := ih vs' hvs
      rw [Option.map_eq_some_iff] at h
      obtain ⟨v, hv, rfl⟩ := h
      have hn := (List.getElem?_eq_some_iff.mp hop).1
      refine ⟨by simp [h1], by omega, ?_⟩
      intro i op' hi hop'
      by_cases hin : i < n
      · have ht : (vs' ++ [v]).take i = vs'.take i := List.take_append_of_le_length (by omega)
        rw [ht, h3 i op' hin hop', List.getElem?_append_left (by omega)]
      · have : i = n := by omega
        subst this
        rw [hop] at hop'
        simp only [Option.some.injEq] at hop'
        subst hop'
        rw [List.take_left' h1, hv]
        rw [List.getElem?_append_right (by omega), h1, Nat.sub_self]
        rfl
    · simp at h

theorem mapM_isSome {A B : Type} (f : A → Option B) (l : List A) (h : (l.mapM f).isSome) : ∀ a ∈ l, (f a).isSome := by
  induction l with
  | nil => simp
  | cons a l ih =>
    rw [List.mapM_cons] at h
    cases ha : f a with
    | none => rw [ha] at h; simp at h
    | some b =>
      rw [ha] at h
      cases hl : l.mapM f with
      | none => rw [hl] at h; simp at h
      | some bs =>
        intro x hx
        rcases List.mem_cons.mp hx with rfl | hx
        · simp [ha]
        · exact ih (by simp [hl]) x hx

/-- The arguments of a call that succeeds have values. -/
theorem callVals_refs (env : ℕ → Option V) (c : Call C K) (h : (callVals env c).isSome) :
    ∀ i ∈ refs c, (env i).isSome := by
  unfold callVals at h
  split at h
  · rename_i l a k h1 h2 h3
    intro i hi
    have ha := mapM_isSome _ _ (by rw [h2]; rfl)
    have hk := mapM_isSome _ _ (by rw [h3]; rfl)
    unfold refs at hi
    rcases List.mem_append.mp hi with hi | hi
    · rcases List.mem_append.mp hi with hi | hi
      · cases hl : c.list with
        | none => rw [hl] at hi; simp at hi
        | some l' =>
          rw [hl] at h1 hi
          simp only [Option.map_eq_some_iff] at h1
          obtain ⟨l'', h1, _⟩ := h1
          exact mapM_isSome env l' (by rw [h1]; rfl) i hi
      · rw [mem_nodeIds] at hi
        have := ha _ hi
        simpa [argVal] using this
    · rw [mem_nodeIds, List.mem_map] at hi
      obtain ⟨e, he, h2⟩ := hi
      have := hk e he
      rw [h2] at this
      simpa [argVal] using this
  · simp at h

/-! ### Edges and uses -/

theorem mem_edgesOf (nodes : List (Op V C F K)) (e : GEdge) (he : e ∈ edgesOf nodes) :
    e.src < nodes.length ∧ e.dst < nodes.length ∧ constVal nodes e.src = none ∧
      ∃ op c, nodes[e.dst]? = some op ∧ callOf op = some c ∧ e.src ∈ refs c := by
  unfold edgesOf at he
  rw [List.mem_flatMap] at he
  obtain ⟨i, hi, he⟩ := he
  rw [List.mem_flatMap] at he
  obtain ⟨j, hj, he⟩ := he
  obtain ⟨h1, h2⟩ := edgesBetween_dst nodes i j e he
  rw [h1, h2]
  refine ⟨List.mem_range.mp hi, List.mem_range.mp hj, ?_⟩
  unfold edgesBetween at he
  split at he
  · simp at he
  · rename_i op hop
    split at he
    · simp at he
    · rename_i c hc
      split_ifs at he with hh
      · refine ⟨by simpa using hh.2, op, c, hop, hc, ?_⟩
        have := hh.1
        rw [allInputs_eq, mem_firsts] at this
        exact this
      · simp at he

theorem exists_edge (nodes : List (Op V C F K)) (i j : ℕ) (hi : i < nodes.length) (hci : constVal nodes i = none)
    (op : Op V C F K) (c : Call C K) (hop : nodes[j]? = some op) (hc : callOf op = some c) (h : i ∈ refs c) :
    ∃ e ∈ edgesOf nodes, e.src = i ∧ e.dst = j := by
  have hj := (List.getElem?_eq_some_iff.mp hop).1
  refine ⟨⟨i, j, (allInputs c).idxOf i + 0⟩, ?_, rfl, rfl⟩
  unfold edgesOf
  rw [List.mem_flatMap]
  refine ⟨i, List.mem_range.mpr hi, ?_⟩
  rw [List.mem_flatMap]
  refine ⟨j, List.mem_range.mpr hj, ?_⟩
  unfold edgesBetween
  simp only [hop, hc]
  rw [if_pos ⟨by rw [allInputs_eq, mem_firsts]; exact h, by rw [hci]; rfl⟩, List.mem_map]
  exact ⟨0, List.mem_range.mpr (by omega), rfl⟩

theorem mem_graphNodes (nodes : List (Op V C F K)) (i : ℕ) :
    i ∈ graphNodes nodes ↔ i < nodes.length ∧ constVal nodes i = none := by
  unfold graphNodes
  rw [List.mem_filter, List.mem_range]
  simp

theorem edges_nodes (nodes : List (Op V C F K)) : ∀ e ∈ edgesOf nodes, e.src ∈ graphNodes nodes ∧ e.dst ∈ graphNodes nodes := by
  intro e he
  obtain ⟨h1, h2, h3, op, c, hop, hc, _⟩ := mem_edgesOf nodes e he
  refine ⟨(mem_graphNodes _ _).mpr ⟨h1, h3⟩, (mem_graphNodes _ _).mpr ⟨h2, ?_⟩⟩
  unfold constVal
  rw [hop]
  cases op <;> simp_all [callOf]

/-! ### Running the built model -/

theorem buildEnv_spec (sem : Sem V C F K) (nodes : List (Op V C F K)) (inputs : List V) (vs : List V)
    (hvs : fxEnv sem nodes inputs nodes.length = some vs) (hS : ∀ op ∈ nodes, SimpleOp (isConst nodes) op)
    (outs : List ℕ) (s : Rest) (hs : Inv (graphNodes nodes) (edgesOf nodes) outs [] s) (order : List ℕ)
    (ho : ∀ j ∈ order, j ∈ s.nodes) (ht : Topological s.edges order) (p q : List ℕ) (hpq : order = p ++ q)
    (env : ℕ → Option V) (henv : ∀ i ∈ p, env i = vs[i]?) :
    ∃ env', buildEnv sem nodes s.edges inputs q env = some env' ∧ ∀ i ∈ order, env' i = vs[i]? := by
  obtain ⟨hlen, _, hstep⟩ := fxEnv_spec sem nodes inputs _ vs hvs
  obtain ⟨rm, hN, hE⟩ := hs.kept
  induction q generalizing p env with
  | nil =>
    refine ⟨env, rfl, ?_⟩
    rw [hpq, List.append_nil]
    exact henv
  | cons j q ih =>
    have hjs : j ∈ s.nodes := ho j (by rw [hpq]; simp)
    have hjr : rm j = false := by
      rw [hN, List.mem_filter] at hjs
      simpa using hjs.2
    have hjg : j ∈ graphNodes nodes := by
      rw [hN] at hjs
      exact List.mem_of_mem_filter hjs
    obtain ⟨hjn, hjc⟩ := (mem_graphNodes _ _).mp hjg
    have hop : nodes[j]? = some nodes[j] := List.getElem?_eq_getElem hjn
    have hfx := hstep j _ hjn hop
    have hjv : vs[j]? = some (vs[j]'(by omega)) := List.getElem?_eq_getElem (by omega)
    have hkey : buildStep sem nodes s.edges inputs env j = vs[j]? := by
      cases hcall : callOf nodes[j] with
      | none =>
        cases hj : nodes[j] with
        | func f c => rw [hj] at hcall; simp [callOf] at hcall
        | module f c => rw [hj] at hcall; simp [callOf] at hcall
        | const v => simp [constVal, hop, hj] at hjc
        | placeholder =>
          rw [← hfx]
          unfold buildStep fxStep
          rw [hop, hj]
          simp only [Option.bind_some, readNode]
          rw [graphInputs_idx nodes j hjn (by rw [hj]; rfl)]
      | some c =>
        have hrefs : ∀ i ∈ refs c, i < j := by
          have hsome : (callVals (fun k => (vs.take j)[k]?) c).isSome := by
            rw [hjv] at hfx
            cases hj : nodes[j] with
            | placeholder => rw [hj] at hcall; simp [callOf] at hcall
            | const v => rw [hj] at hcall; simp [callOf] at hcall
            | func f c' =>
              rw [hj] at hcall hfx
              simp only [callOf, Option.some.injEq] at hcall
              subst hcall
              simp only [fxStep] at hfx
              cases h : callVals (fun k => (vs.take j)[k]?) c' with
              | none => rw [h] at hfx; simp at hfx
              | some a => rfl
            | module f c' =>
              rw [hj] at hcall hfx
              simp only [callOf, Option.some.injEq] at hcall
              subst hcall
              simp only [fxStep] at hfx
              cases h : callVals (fun k => (vs.take j)[k]?) c' with
              | none => rw [h] at hfx; simp at hfx
              | some a => rfl
          intro i hi
          have := callVals_refs _ c hsome i hi
          simp only [List.getElem?_take] at this
          split_ifs at this with h
          · exact h
          · simp at this
        rw [← hfx]
        have hval : ∀ i, i < j → vs[i]? = some (vs.getD i (vs[j]'(by omega))) := by
          intro i hi
          rw [List.getD_eq_getElem?_getD, List.getElem?_eq_getElem (by omega)]
          rfl
        refine step_call sem nodes s.edges inputs j _ hop ?_ c hcall (hS _ (List.getElem_mem _))
          (fun i hi => by have := hrefs i hi; omega) env _ (fun i => vs.getD i (vs[j]'(by omega))) ?_ ?_ ?_
        · rw [hE, List.filter_filter]
          apply List.filter_congr
          intro e _
          by_cases hd : e.dst = j
          · simp [hd, hjr]
          · simp [hd]
        · intro i hi
          simp only [List.getElem?_take]
          rw [if_pos (hrefs i hi)]
          exact hval i (hrefs i hi)
        · intro i hi hci
          have hij := hrefs i hi
          obtain ⟨e, he, hes, hed⟩ := exists_edge nodes i j (by omega) (by simpa using hci) _ c hop hcall hi
          have hesE : e ∈ s.edges := by
            rw [hE, List.mem_filter]
            exact ⟨he, by rw [hed, hjr]; rfl⟩
          have hp := ht p j q hpq e hesE hed
          rw [hes] at hp
          rw [henv i hp]
          exact hval i hij
        · intro i hi v hv
          have hij := hrefs i hi
          have hin : i < nodes.length := by omega
          have hopi : nodes[i]? = some nodes[i] := List.getElem?_eq_getElem hin
          have hst := hstep i _ hin hopi
          have hcst : nodes[i] = .const v := by
            unfold constVal at hv
            rw [hopi] at hv
            cases hn : nodes[i] <;> rw [hn] at hv <;> simp_all
          rw [hcst, hval i hij] at hst
          simp only [fxStep, Option.some.injEq] at hst
          exact hst.symm
    unfold buildEnv
    rw [hkey, hjv]
    simp only [Option.bind_some]
    refine ih (p ++ [j]) (by rw [hpq]; simp) _ ?_
    intro i hi
    by_cases hij : i = j
    · rw [if_pos hij, hij, hjv]
    · rw [if_neg hij]
      rcases List.mem_append.mp hi with hi | hi
      · exact henv i hi
      · simp at hi; exact absurd hi hij

/-- **C98** (partial): a traced model that runs is read, and the model built from the graph, whatever topological
order of its nodes it uses, returns what the traced model returns — for every traced model whose calls are simple
(no tensor appears twice among the arguments of a call, except a single one repeated; modules are called with tensors
only, positionally), which returns different nodes that are no constants, uses its inputs and constants, and whose
outputs lead to a last output. Without these conditions it is false: see the theorems below. -/
theorem C98_round_trip_partial (sem : Sem V C F K) (g : Fx V C F K) (inputs r : List V)
    (hrun : fxRun sem g inputs = some r) (hS : ∀ op ∈ g.nodes, SimpleOp (isConst g.nodes) op)
    (hod : g.outs.Nodup) (hoc : ∀ o ∈ g.outs, ¬ isConst g.nodes o) (hol : ∀ o ∈ g.outs, Leads g o)
    (hcu : ∀ i, isConst g.nodes i → ∃ j, Uses g i j) (hin : ∀ i, g.nodes[i]? = some .placeholder → ∃ j, Uses g i j) :
    ∃ s, read g = some (s, g.outs) ∧ (∀ o ∈ g.outs, o ∈ s.nodes) ∧
      ∀ order, order.Perm s.nodes → Topological s.edges order → rebuilt sem g order inputs = some r := by
  unfold fxRun at hrun
  cases hvs : fxEnv sem g.nodes inputs g.nodes.length with
  | none => rw [hvs] at hrun; simp at hrun
  | some vs =>
    rw [hvs] at hrun
    simp only [Option.bind_some] at hrun
    obtain ⟨hlen, _, hstep⟩ := fxEnv_spec sem g.nodes inputs _ vs hvs
    have hout : ∀ o ∈ g.outs, o < g.nodes.length := by
      intro o ho
      have := mapM_isSome _ _ (by rw [hrun]; rfl) o ho
      by_contra hh
      rw [List.getElem?_eq_none (by omega)] at this
      simp at this
    have hog : ∀ o ∈ g.outs, o ∈ graphNodes g.nodes := fun o ho =>
      (mem_graphNodes _ _).mpr ⟨hout o ho, not_isConst (hoc o ho)⟩
    have hinv := removeBroken_inv (N0 := graphNodes g.nodes) (E0 := edgesOf g.nodes) (outs := g.outs)
      (List.nodup_range.filter _) (edges_nodes g.nodes)
    have hread : read g = some (removeBroken g.outs ⟨graphNodes g.nodes, edgesOf g.nodes⟩, g.outs) := by
      unfold read
      simp only [firsts_of_nodup hod]
      rw [if_neg, if_neg, if_neg]
      · simp only [List.any_eq_true, Bool.not_eq_true', List.any_eq_false, decide_eq_true_eq, not_exists, not_and]
        push Not
        intro i hi
        unfold graphInputs at hi
        rw [List.mem_filter, List.mem_range] at hi
        have hpl : g.nodes[i]? = some .placeholder := by
          have h2 := hi.2
          rw [List.getElem?_eq_getElem hi.1] at h2 ⊢
          cases hn : g.nodes[i] <;> rw [hn] at h2 <;> simp_all [isPlaceholder]
        obtain ⟨j, op, c, hop, hc, hij⟩ := hin i hpl
        obtain ⟨e, he, hes, _⟩ := exists_edge g.nodes i j hi.1 (by simp [constVal, hpl]) op c hop hc hij
        exact ⟨e, he, hes⟩
      · simp only [List.any_eq_true, Bool.and_eq_true, Bool.not_eq_true', decide_eq_false_iff_not, not_exists, not_and,
          not_not, List.mem_range]
        intro i hi hc
        obtain ⟨j, op, c, hop, hcall, hij⟩ := hcu i hc
        rw [List.mem_flatMap]
        refine ⟨j, List.mem_range.mpr (List.getElem?_eq_some_iff.mp hop).1, ?_⟩
        rw [hop]
        simp only [Option.bind_some, hcall]
        have hSop := hS op (List.mem_of_getElem? hop)
        cases hl : c.list with
        | none =>
          simp only
          rw [allInputs_eq, mem_firsts]
          exact hij
        | some l =>
          simp only
          cases op with
          | placeholder => simp [callOf] at hcall
          | const v => simp [callOf] at hcall
          | module f c' =>
            simp only [callOf, Option.some.injEq] at hcall
            subst hcall
            have := hSop.1
            rw [hl] at this
            simp at this
          | func f c' =>
            simp only [callOf, Option.some.injEq] at hcall
            subst hcall
            rcases hSop.2 with ⟨l', hl', _, ha, hk⟩ | ⟨hl', _⟩ | ⟨hl', _⟩
            · rw [hl] at hl'
              simp only [Option.some.injEq] at hl'
              subst hl'
              unfold refs at hij
              rw [hl, ha, hk] at hij
              simpa using hij
            · rw [hl] at hl'; simp at hl'
            · rw [hl] at hl'; simp at hl'
      · simp only [List.any_eq_true, Bool.not_eq_true', decide_eq_false_iff_not, not_exists, not_and, not_not]
        exact hog
    have hsafe : ∀ o, Leads g o → o ∈ graphNodes g.nodes → ToLastOutput (edgesOf g.nodes) g.outs o := by
      intro o ho
      induction ho with
      | last o h hn =>
        intro _
        refine .sink o h ?_
        rintro e he rfl
        obtain ⟨_, _, _, op, c, hop, hc, hr⟩ := mem_edgesOf g.nodes e he
        exact hn e.dst ⟨op, c, hop, hc, hr⟩
      | step i j h hj ih =>
        intro hi
        obtain ⟨op, c, hop, hc, hr⟩ := h
        obtain ⟨h1, h2⟩ := (mem_graphNodes _ _).mp hi
        obtain ⟨e, he, hes, hed⟩ := exists_edge g.nodes i j h1 h2 op c hop hc hr
        have := ToLastOutput.step (outs := g.outs) e he (by
          rw [hed]
          apply ih
          rw [← hed]
          exact (edges_nodes g.nodes e he).2)
        rw [hes] at this
        exact this
    have hos : ∀ o ∈ g.outs, o ∈ (removeBroken g.outs ⟨graphNodes g.nodes, edgesOf g.nodes⟩).nodes := fun o ho =>
      (hinv.safe o (hog o ho) (hsafe o (hol o ho) (hog o ho))).2
    refine ⟨_, hread, hos, ?_⟩
    intro order hperm htop
    obtain ⟨env', h1, h2⟩ := buildEnv_spec sem g.nodes inputs vs hvs hS g.outs _ hinv order
      (fun j hj => hperm.mem_iff.mp hj) htop [] order rfl (fun _ => none) (by simp)
    unfold rebuilt
    rw [hread]
    simp only [Option.bind_some, h1]
    rw [← hrun]
    have hcongr : ∀ l : List ℕ, (∀ o ∈ l, env' o = vs[o]?) → l.mapM env' = l.mapM (fun i => vs[i]?) := by
      intro l hl
      induction l with
      | nil => rfl
      | cons a l ih =>
        rw [List.mapM_cons, List.mapM_cons, hl a (by simp), ih (fun o ho => hl o (by simp [ho]))]
    exact hcongr g.outs (fun o ho => h2 o (hperm.mem_iff.mpr (hos o ho)))

end MCT.Torch
