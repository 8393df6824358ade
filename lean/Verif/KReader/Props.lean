/- C111: the graph that is read from a Keras model computes what the model computes. -/
import Verif.KReader.Flat

namespace MCT.KReader

open MCT.Graph (Edge)

variable {O V : Type}

/-- What is known about the graph of a model at a place. -/
structure Parsed (p : Path) (m : KModel O) (h : KGraph O) : Prop where
  good : Good h
  paths : ∀ q ∈ h.nodes.map (·.path), ∃ j r, q = p ++ j :: r
  flat : ∀ n ∈ h.nodes, ∀ m', n.op ≠ .model m'
  ins : h.inputs.length = m.inputs.length
  outs : h.outputs.length = m.outputs.length
  outer : Inner m → Outer h
  runs : ∀ (V : Type) (interp : O → List V → List V) xs ys, h.Runs interp xs ys ↔ m.Runs interp xs ys

/-- What is known while the nested models are unrolled. -/
structure St (p : Path) (i : ℕ) (rest : List (KNode O)) (g0 g : KGraph O) : Prop where
  good : Good g
  ins : g.inputs = g0.inputs
  outs : g.outputs.length = g0.outputs.length
  runs : ∀ (V : Type) (interp : O → List V → List V) xs ys, g.Runs interp xs ys ↔ g0.Runs interp xs ys
  outer : Outer g0 → Outer g
  paths : ∀ q ∈ g.nodes.map (·.path), ∃ j r, q = p ++ j :: r ∧ (r = [] ∨ j < i)
  pending : ∀ j a, rest[j]? = some a → ⟨p ++ [i + j], a.op, a.outs.length⟩ ∈ g.nodes
  done : ∀ n ∈ g.nodes, ∀ m, n.op = .model m → ∃ j a, rest[j]? = some a ∧ n.path = p ++ [i + j]
  notIn : ∀ j a, rest[j]? = some a → ∀ m, a.op = .model m → p ++ [i + j] ∉ g.inputs

/-- Unrolling keeps the conditions on the inputs and outputs. -/
theorem merge_outer {M : Path} {m : KModel O} {k : ℕ} {g h : KGraph O} (F : Fits M m k g h) {es : List (Edge Path)}
    (hp : es.Perm (specEdges M g h)) (U : Outer g) :
    Outer (⟨specNodes M g h, es, g.inputs, g.outputs.map (rewOutput M h)⟩ : KGraph O) where
  first e he hi := by
    have hi : e.src ∈ g.inputs := hi
    rcases mem_specEdges.1 (hp.mem_iff.1 he) with ⟨x, hx, -, rfl⟩ | ⟨x, hx, rfl⟩
    · rcases rewOut_eq F hx with ⟨-, h2⟩ | ⟨-, o, ho, -, h2⟩
      · rw [h2] at hi ⊢
        exact U.first x hx hi
      · rw [h2] at hi
        exact absurd (F.ih.outMem o ho) (F.disj _ (F.og.inMem _ hi))
    · rcases rewIn_eq F x with ⟨-, h2⟩ | ⟨h3, e, he1, -, -, -, h2⟩
      · rw [h2] at hi
        exact absurd (F.ih.src x hx) (F.disj _ (F.og.inMem _ hi))
      · rw [h2]
        exact F.first x hx h3
  fresh o ho hi := by
    have hi : o.1 ∈ g.inputs := hi
    obtain ⟨q, hq, rfl⟩ := List.mem_map.1 ho
    by_cases hM : q.1 = M
    · obtain ⟨q', h1, -, h2⟩ := outputs_get F hq hM
      rw [h2] at hi
      exact F.disj _ (F.og.inMem _ hi) (F.ih.outMem _ h1)
    · have e : rewOutput M h q = q := by simp [rewOutput, hM]
      rw [e] at hi
      exact U.fresh q hq hi
  outsOnce := by
    refine List.Nodup.map_on ?_ U.outsOnce
    intro a ha b hb hab
    by_cases hM : a.1 = M <;> by_cases hM' : b.1 = M
    · obtain ⟨q, -, h1, h2⟩ := outputs_get F ha hM
      obtain ⟨q', -, h3, h4⟩ := outputs_get F hb hM'
      rw [h2, h4] at hab
      subst hab
      obtain ⟨hi, e1⟩ := List.getElem?_eq_some_iff.1 h1
      obtain ⟨hj, e2⟩ := List.getElem?_eq_some_iff.1 h3
      exact Prod.ext (hM.trans hM'.symm) ((F.outsOnce.getElem_inj_iff).1 (e1.trans e2.symm))
    · obtain ⟨q, hq, h1, h2⟩ := outputs_get F ha hM
      rw [h2] at hab
      have e : rewOutput M h b = b := by simp [rewOutput, hM']
      rw [e] at hab
      exact absurd (hab ▸ F.ih.outMem q hq) (F.disj _ (F.og.outMem b hb))
    · obtain ⟨q, hq, h1, h2⟩ := outputs_get F hb hM'
      rw [h2] at hab
      have e : rewOutput M h a = a := by simp [rewOutput, hM]
      rw [e] at hab
      exact absurd (hab ▸ F.ih.outMem q hq) (F.disj _ (F.og.outMem a ha))
    · simpa [rewOutput, hM, hM'] using hab

/-- A node that is not a model is passed. -/
theorem St.skip {p : Path} {i : ℕ} {a : KNode O} {rest : List (KNode O)} {g0 g : KGraph O}
    (S : St p i (a :: rest) g0 g) (ha : ∀ m, a.op ≠ .model m) : St p (i + 1) rest g0 g where
  good := S.good
  ins := S.ins
  outs := S.outs
  runs := S.runs
  outer := S.outer
  paths q hq := by
    obtain ⟨j, r, h1, h2⟩ := S.paths q hq
    exact ⟨j, r, h1, h2.imp id fun h => by omega⟩
  pending j b hb := by
    have := S.pending (j + 1) b (by simpa using hb)
    rwa [show i + (j + 1) = i + 1 + j by omega] at this
  done n hn m hm := by
    obtain ⟨j, b, h1, h2⟩ := S.done n hn m hm
    cases j with
    | zero =>
      have e : n = ⟨p ++ [i + 0], a.op, a.outs.length⟩ :=
        List.inj_on_of_nodup_map S.good.paths hn (S.pending 0 a rfl) h2
      rw [e] at hm
      exact absurd hm (ha m)
    | succ j => exact ⟨j, b, by simpa using h1, by rw [h2]; congr 2; omega⟩
  notIn j b hb m hm := by
    have := S.notIn (j + 1) b (by simpa using hb) m hm
    rwa [show i + (j + 1) = i + 1 + j by omega] at this

/-- A nested model fits. -/
theorem St.fits {p : Path} {i : ℕ} {a : KNode O} {rest : List (KNode O)} {g0 g h : KGraph O} {m : KModel O}
    (S : St p i (a :: rest) g0 g) (ha : a.op = .model m) (P : Parsed (p ++ [i]) m h) (I : Inner m) :
    Fits (p ++ [i]) m a.outs.length g h where
  og := S.good
  ih := P.good
  node := by
    have := S.pending 0 a rfl
    rwa [ha] at this
  notIn := S.notIn 0 a rfl m ha
  disj q hq hh := by
    obtain ⟨j, r, h1, h2⟩ := S.paths q hq
    obtain ⟨j', r', h3⟩ := P.paths q hh
    rw [h1, List.append_assoc] at h3
    have h4 := List.append_cancel_left h3
    rw [List.singleton_append, List.cons.injEq] at h4
    rcases h2 with h2 | h2
    · rw [h2] at h4
      exact absurd h4.2 (by simp)
    · omega
  ins := P.ins
  outs := P.outs
  first := (P.outer I).first
  fresh := (P.outer I).fresh
  outsOnce := (P.outer I).outsOnce

/-- A nested model is unrolled. -/
theorem St.unroll {p : Path} {i : ℕ} {a : KNode O} {rest : List (KNode O)} {g0 g h : KGraph O} {m : KModel O}
    (S : St p i (a :: rest) g0 g) (ha : a.op = .model m) (P : Parsed (p ++ [i]) m h) (I : Inner m) :
    ∃ g', merge (p ++ [i]) g h = some g' ∧ St p (i + 1) rest g0 g' := by
  have F := S.fits ha P I
  obtain ⟨es, hp, hm⟩ := merge_eq F
  refine ⟨_, hm, ?_⟩
  refine ⟨merge_good F hp, S.ins, ?_, ?_, ?_, ?_, ?_, ?_, ?_⟩
  · simpa using S.outs
  · intro V interp xs ys
    rw [merge_runs F hp (P.runs V interp), S.runs]
  · exact fun U => merge_outer F hp (S.outer U)
  · intro q hq
    rcases (mem_specPaths F).1 hq with ⟨h1, -⟩ | ⟨h1, -⟩
    · obtain ⟨j, r, h2, h3⟩ := S.paths q h1
      exact ⟨j, r, h2, h3.imp id fun h => by omega⟩
    · obtain ⟨j, r, h2⟩ := P.paths q h1
      exact ⟨i, j :: r, by rw [h2, List.append_assoc]; rfl, Or.inr (by omega)⟩
  · intro j b hb
    have := S.pending (j + 1) b (by simpa using hb)
    rw [show i + (j + 1) = i + 1 + j by omega] at this
    refine (mem_specNodes F).2 (Or.inl ⟨this, ?_⟩)
    show p ++ [i + 1 + j] ≠ p ++ [i]
    simp only [ne_eq, List.append_cancel_left_eq, List.cons.injEq, and_true]
    omega
  · intro n hn m' hm'
    rcases (mem_specNodes F).1 hn with ⟨h1, h2⟩ | ⟨h1, -⟩
    · obtain ⟨j, b, h3, h4⟩ := S.done n h1 m' hm'
      cases j with
      | zero => exact absurd h4 h2
      | succ j => exact ⟨j, b, by simpa using h3, by rw [h4]; congr 2; omega⟩
    · exact absurd hm' (P.flat n h1 m')
  · intro j b hb m' hm'
    have := S.notIn (j + 1) b (by simpa using hb) m' hm'
    rwa [show i + (j + 1) = i + 1 + j by omega] at this

mutual
theorem parse_ok : ∀ (m : KModel O) (p : Path), m.Ok → ∃ h, parse p m = some h ∧ Parsed p m h
  | .mk nodes ins outs, p, hm => by
    rw [KModel.Ok] at hm
    obtain ⟨L, P, N⟩ := hm
    have H := handler_ok (p := p) L P
    have S : St p 0 nodes (flatGraph (handler p nodes) ins outs) (flatGraph (handler p nodes) ins outs) := by
      refine ⟨flat_good H, rfl, rfl, fun _ _ _ _ => Iff.rfl, id, ?_, ?_, ?_, ?_⟩
      · intro q hq
        rw [flat_paths, handler_paths] at hq
        obtain ⟨j, -, rfl⟩ := List.mem_map.1 hq
        exact ⟨j, [], rfl, Or.inl rfl⟩
      · intro j a ha
        rw [Nat.zero_add]
        exact List.mem_map.2 ⟨_, mem_handler.2 ⟨j, a, ha, rfl⟩, rfl⟩
      · intro n hn m' _
        obtain ⟨x, hx, rfl⟩ := List.mem_map.1 hn
        obtain ⟨j, a, ha, rfl⟩ := mem_handler.1 hx
        exact ⟨j, a, ha, by rw [Nat.zero_add]⟩
      · intro j a ha m' hm' hi
        rw [Nat.zero_add] at hi
        have := (mem_flat_inputs H (mem_handler.2 ⟨j, a, ha, rfl⟩)).1 hi
        simp only [hm'] at this
        cases this
    obtain ⟨g', h1, h2⟩ := flattenNodes_ok nodes p 0 [] _ _ N P.nested (by simp) S
    refine ⟨g', ?_, h2.good, ?_, ?_, ?_, ?_, ?_, ?_⟩
    · rw [parse, buildGraph_ok L P, Option.bind_some, h1]
    · intro q hq
      obtain ⟨j, r, h3, -⟩ := h2.paths q hq
      exact ⟨j, r, h3⟩
    · intro n hn m' hm'
      obtain ⟨j, a, h3, -⟩ := h2.done n hn m' hm'
      simp at h3
    · rw [h2.ins]
      simp [flatGraph, KModel.inputs]
    · rw [h2.outs]
      simp [flatGraph, KModel.outputs]
    · exact fun I => h2.outer (flat_outer L P I)
    · intro V interp xs ys
      rw [h2.runs, buildGraph_runs L P]
theorem flattenNodes_ok : ∀ (nodes : List (KNode O)) (p : Path) (i : ℕ) (seen : List ℕ) (g0 g : KGraph O),
    nodesOk nodes → (nodes.Pairwise fun a b => a.layer = b.layer → ∀ m, b.op ≠ .model m) →
    (∀ a ∈ nodes, a.layer ∈ seen → ∀ m, a.op ≠ .model m) → St p i nodes g0 g →
    ∃ g', flattenNodes p i seen nodes g = some g' ∧ St p (i + nodes.length) [] g0 g'
  | [], p, i, seen, g0, g, _, _, _, S => ⟨g, rfl, S⟩
  | .mk l op ins outs :: ns, p, i, seen, g0, g, N, W, Q, S => by
    rw [nodesOk] at N
    rw [List.pairwise_cons] at W
    obtain ⟨g1, h1, S1⟩ := flattenOp_ok op l ins outs ns p i (decide (l ∈ seen)) g0 g N.1
      (fun h => Q (.mk l op ins outs) List.mem_cons_self (of_decide_eq_true h)) S
    obtain ⟨g2, h2, S2⟩ := flattenNodes_ok ns p (i + 1) (l :: seen) g0 g1 N.2 W.2 (by
      intro a ha hl
      rcases List.mem_cons.1 hl with h | h
      · exact W.1 a ha h.symm
      · exact Q a (List.mem_cons_of_mem _ ha) h) S1
    refine ⟨g2, by rw [flattenNodes, h1, Option.bind_some, h2], ?_⟩
    rwa [List.length_cons, show i + (ns.length + 1) = i + 1 + ns.length by omega]
theorem flattenOp_ok : ∀ (op : KOp O) (l : ℕ) (ins outs : List ℕ) (ns : List (KNode O)) (p : Path) (i : ℕ) (reused : Bool)
    (g0 g : KGraph O), opOk op → (reused = true → ∀ m, op ≠ .model m) → St p i (.mk l op ins outs :: ns) g0 g →
    ∃ g', flattenOp (p ++ [i]) reused op g = some g' ∧ St p (i + 1) ns g0 g'
  | .input, l, ins, outs, ns, p, i, reused, g0, g, _, _, S => ⟨g, by rw [flattenOp], S.skip fun m h => by cases h⟩
  | .prim o, l, ins, outs, ns, p, i, reused, g0, g, _, _, S => ⟨g, by rw [flattenOp], S.skip fun m h => by cases h⟩
  | .model m, l, ins, outs, ns, p, i, reused, g0, g, N, Q, S => by
    rw [opOk] at N
    obtain ⟨h, h1, P⟩ := parse_ok m (p ++ [i]) N.1
    obtain ⟨g', h2, S'⟩ := S.unroll rfl P N.2
    refine ⟨g', ?_, S'⟩
    have hr : reused = false := by
      cases reused
      · rfl
      · exact absurd rfl (Q rfl m)
    rw [flattenOp, hr, h1]
    exact h2
end

/-- C111 (partial: the conditions `Plain` and `Inner` in `KModel.Ok` are not guaranteed by Keras, see the violations): a
model is read, no nested model is left in the graph, and the graph computes what the model computes. -/
theorem C111_read_partial (m : KModel O) (hm : m.Ok) :
    ∃ g, read m = some g ∧ (g.nodes.map (·.path)).Nodup ∧ (∀ n ∈ g.nodes, ∀ m', n.op ≠ .model m') ∧
      ∀ (V : Type) (interp : O → List V → List V) (xs ys : List V), g.Runs interp xs ys ↔ m.Runs interp xs ys := by
  obtain ⟨g, h1, P⟩ := parse_ok m [] hm
  exact ⟨g, h1, P.good.paths, P.flat, P.runs⟩

end MCT.KReader
