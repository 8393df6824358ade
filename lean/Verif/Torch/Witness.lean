/- Traced models that the graph does not represent, and one that it does. -/
import Verif.Torch.Dead

namespace MCT.Torch

set_option linter.unusedVariables false

open TorchSpec

/-- Functions that return the list of their arguments: the function, the tensors of the list between 100 and 101,
positional arguments, and the keyword arguments 0 and 1 after 200 and 201. Modules do the same. -/
def show1 : List ℕ ⊕ ℕ → List ℕ
  | .inl v => v
  | .inr c => [c]

def showCall (f : ℕ) (l : Option (List (List ℕ))) (a : List (List ℕ ⊕ ℕ)) (k : ℕ → Option (List ℕ ⊕ ℕ)) : List ℕ :=
  f :: ((match l with
    | none => []
    | some l => 100 :: (l.flatten ++ [101])) ++ a.flatMap show1 ++
    (match k 0 with
    | none => []
    | some v => 200 :: show1 v) ++
    (match k 1 with
    | none => []
    | some v => 201 :: show1 v))

def showSem : Sem (List ℕ) ℕ ℕ ℕ where
  func f l a k := some (showCall f l a k)
  module f l a k := some (showCall f l a k)

abbrev FxW := Fx (List ℕ) ℕ ℕ ℕ

/-- Two inputs `x`, `y`, a constant `c`; `conv(x)`; `cat([conv, y], 1)`; `add(cat, c, alpha=2)`; `size(conv, 0)`, which
nothing uses; the sum is returned. -/
def exNet : FxW :=
  ⟨[.placeholder, .placeholder, .const [9], .module 10 ⟨none, [.node 0], []⟩, .func 11 ⟨some [3, 1], [.lit 1], []⟩,
    .func 12 ⟨none, [.node 4, .node 2], [(0, .lit 2)]⟩, .func 13 ⟨none, [.node 3, .lit 0], []⟩], [5]⟩

example : fxRun showSem exNet [[1], [2]] = some [[12, 11, 100, 10, 1, 2, 101, 1, 9, 200, 2]] := by decide +kernel

example : (read exNet).map (fun r => (r.1.nodes, r.1.edges.map (fun e => (e.src, e.dst, e.idx)), r.2)) =
    some ([0, 1, 3, 4, 5], [(0, 3, 0), (1, 4, 1), (3, 4, 0), (4, 5, 0)], [5]) := by decide +kernel

example : rebuilt showSem exNet [1, 0, 3, 4, 5] [[1], [2]] = some [[12, 11, 100, 10, 1, 2, 101, 1, 9, 200, 2]] := by
  decide +kernel

/-- The hypotheses of `C98_round_trip_partial` hold of this model. -/
example : (∀ op ∈ exNet.nodes, SimpleOp (isConst exNet.nodes) op) ∧ exNet.outs.Nodup ∧
    (∀ o ∈ exNet.outs, ¬ isConst exNet.nodes o) ∧ (∀ o ∈ exNet.outs, Leads exNet o) ∧
    (∀ i, isConst exNet.nodes i → ∃ j, Uses exNet i j) ∧
    (∀ i, exNet.nodes[i]? = some .placeholder → ∃ j, Uses exNet i j) := by
  have hU : ∀ o ∈ exNet.outs, ∀ j, ¬ Uses exNet o j := by
    rintro o ho j ⟨op, c, hop, hc, hr⟩
    obtain rfl : o = 5 := by simpa [exNet] using ho
    match j with
    | 0 | 1 | 2 => simp [exNet] at hop; subst hop; simp [callOf] at hc
    | 3 | 4 | 5 | 6 =>
      simp [exNet] at hop; subst hop
      simp [callOf] at hc; subst hc
      simp [refs, nodeIds] at hr
    | j + 7 => simp [exNet] at hop
  refine ⟨?_, by decide, fun o ho => by
    obtain rfl : o = 5 := by simpa [exNet] using ho
    simp [isConst, constVal, exNet], fun o ho => .last o ho (hU o ho), ?_, ?_⟩
  · intro op hop
    simp only [exNet, List.mem_cons, List.not_mem_nil, or_false] at hop
    rcases hop with rfl | rfl | rfl | rfl | rfl | rfl | rfl
    · trivial
    · trivial
    · trivial
    · exact ⟨rfl, rfl, rfl, Or.inl (by simp [nodeIds])⟩
    · exact ⟨by simp, Or.inl ⟨[3, 1], rfl, Or.inl (by simp), rfl, rfl⟩⟩
    · exact ⟨by simp, Or.inr (Or.inl ⟨rfl, by simp [nodeIds]⟩)⟩
    · exact ⟨by simp, Or.inr (Or.inl ⟨rfl, by simp [nodeIds]⟩)⟩
  · intro i hi
    match i with
    | 2 => exact ⟨5, _, _, rfl, rfl, by simp [refs, nodeIds]⟩
    | 0 | 1 | 3 | 4 | 5 | 6 => simp [isConst, constVal, exNet] at hi
    | i + 7 => simp [isConst, constVal, exNet] at hi
  · intro i hi
    match i with
    | 0 => exact ⟨3, _, _, rfl, rfl, by simp [refs, nodeIds]⟩
    | 1 => exact ⟨4, _, _, rfl, rfl, by simp [refs]⟩
    | 2 | 3 | 4 | 5 | 6 => simp [exNet] at hi
    | i + 7 => simp [exNet] at hi

/-! ### What is read wrongly -/

/-- `torch.cat([x, y, x])` is rebuilt as `torch.cat([x, x, y])`. -/
theorem C98_list_violated : ∃ g : FxW, ∃ order ins, fxRun showSem g ins = some [[11, 100, 1, 2, 1, 101]] ∧
    rebuilt showSem g order ins = some [[11, 100, 1, 1, 2, 101]] :=
  ⟨⟨[.placeholder, .placeholder, .func 11 ⟨some [0, 1, 0], [], []⟩], [2]⟩, [0, 1, 2], [[1], [2]], by decide +kernel⟩

/-- `f(x, x, y)`, where `y` is read before `x`, is rebuilt as `f(x, y, x)`. -/
theorem C98_positional_violated : ∃ g : FxW, ∃ order ins, fxRun showSem g ins = some [[11, 2, 2, 1]] ∧
    rebuilt showSem g order ins = some [[11, 2, 1, 2]] :=
  ⟨⟨[.placeholder, .placeholder, .func 11 ⟨none, [.node 1, .node 1, .node 0], []⟩], [2]⟩, [0, 1, 2], [[1], [2]],
    by decide +kernel⟩

/-- `f(x, y, x, 5)`: the arguments are rebuilt in another order. -/
theorem C98_literal_violated : ∃ g : FxW, ∃ order ins, fxRun showSem g ins = some [[11, 1, 2, 1, 5]] ∧
    ∃ r, rebuilt showSem g order ins = some r ∧ r ≠ [[11, 1, 2, 1, 5]] :=
  ⟨⟨[.placeholder, .placeholder, .func 11 ⟨none, [.node 0, .node 1, .node 0, .lit 5], []⟩], [2]⟩, [0, 1, 2],
    [[1], [2]], by decide +kernel, _, rfl, by decide +kernel⟩

/-- `f(x, min=m, max=m)` is rebuilt without one of the keyword arguments. -/
theorem C98_keyword_violated : ∃ g : FxW, ∃ order ins, fxRun showSem g ins = some [[11, 1, 200, 2, 201, 2]] ∧
    rebuilt showSem g order ins = some [[11, 1, 200, 2]] :=
  ⟨⟨[.placeholder, .placeholder, .func 11 ⟨none, [.node 0], [(0, .node 1), (1, .node 1)]⟩], [2]⟩, [0, 1, 2],
    [[1], [2]], by decide +kernel⟩

/-- `f(x, x, c)` with a constant `c` is rebuilt as `f(x, c, x)`. -/
theorem C98_constant_violated : ∃ g : FxW, ∃ order ins, fxRun showSem g ins = some [[11, 1, 1, 9]] ∧
    rebuilt showSem g order ins = some [[11, 1, 9, 1]] :=
  ⟨⟨[.placeholder, .const [9], .func 11 ⟨none, [.node 0, .node 0, .node 1], []⟩], [2]⟩, [0, 2], [[1]],
    by decide +kernel⟩

/-- A module called with a literal, `m(x, 5)`, is rebuilt as `m(x)`; called with keywords, `m(b=y, a=x)`, it is rebuilt
as `m(y, x)`; called with a list, `m([x, y])`, it is rebuilt as `m(x, y)`. -/
theorem C98_module_violated :
    (∃ g : FxW, ∃ order ins, fxRun showSem g ins = some [[11, 1, 5]] ∧ rebuilt showSem g order ins = some [[11, 1]]) ∧
    (∃ g : FxW, ∃ order ins, fxRun showSem g ins = some [[11, 200, 1, 201, 2]] ∧
      rebuilt showSem g order ins = some [[11, 2, 1]]) ∧
    (∃ g : FxW, ∃ order ins, fxRun showSem g ins = some [[11, 100, 1, 2, 101]] ∧
      rebuilt showSem g order ins = some [[11, 1, 2]]) :=
  ⟨⟨⟨[.placeholder, .module 11 ⟨none, [.node 0, .lit 5], []⟩], [1]⟩, [0, 1], [[1]], by decide +kernel⟩,
   ⟨⟨[.placeholder, .placeholder, .module 11 ⟨none, [], [(1, .node 1), (0, .node 0)]⟩], [2]⟩, [0, 1, 2], [[1], [2]],
    by decide +kernel⟩,
   ⟨⟨[.placeholder, .placeholder, .module 11 ⟨some [0, 1], [], []⟩], [2]⟩, [0, 1, 2], [[1], [2]], by decide +kernel⟩⟩

/-- A tensor after the list, `f([x, y], z)`, is rebuilt in the list, `f([x, y, z])`. -/
theorem C98_after_list_violated : ∃ g : FxW, ∃ order ins, fxRun showSem g ins = some [[11, 100, 1, 2, 101, 3]] ∧
    rebuilt showSem g order ins = some [[11, 100, 1, 2, 3, 101]] :=
  ⟨⟨[.placeholder, .placeholder, .placeholder, .func 11 ⟨some [0, 1], [.node 2], []⟩], [3]⟩, [0, 1, 2, 3],
    [[1], [2], [3]], by decide +kernel⟩

/-- A model that returns `(y, x, y)` is rebuilt as a model that returns `(y, x)`. -/
theorem C98_outputs_violated : ∃ g : FxW, ∃ order ins, fxRun showSem g ins = some [[12, 1], [11, 1], [12, 1]] ∧
    rebuilt showSem g order ins = some [[12, 1], [11, 1]] :=
  ⟨⟨[.placeholder, .func 11 ⟨none, [.node 0], []⟩, .func 12 ⟨none, [.node 0], []⟩], [2, 1, 2]⟩, [0, 1, 2], [[1]],
    by decide +kernel⟩

/-- An output whose only consumer leads nowhere is removed from the graph, although it is still listed as output: the
built model cannot return it. (`y = conv(x); y.size(0); return y`.) -/
theorem C99_output_violated : ∃ g : FxW, ∃ s outs, ∃ o ∈ g.outs, read g = some (s, outs) ∧ o ∈ outs ∧ o ∉ s.nodes ∧
    (∃ ins r, fxRun showSem g ins = some r) ∧ ∀ (sem : Sem (List ℕ) ℕ ℕ ℕ) ins order, order.Perm s.nodes →
      rebuilt sem g order ins = none := by
  refine ⟨⟨[.placeholder, .func 11 ⟨none, [.node 0], []⟩, .func 12 ⟨none, [.node 0], []⟩,
    .func 13 ⟨none, [.node 1, .lit 0], []⟩], [2, 1]⟩, ⟨[0, 2], [⟨0, 2, 0⟩]⟩, [2, 1], 1, by decide, by rfl, by decide,
    by decide, ⟨[[1]], _, rfl⟩, ?_⟩
  intro sem ins order hp
  have hno : 1 ∉ order := fun h => by have := hp.mem_iff.mp h; simp at this
  have hgen : ∀ (l : List ℕ) (nodes : List (Op (List ℕ) ℕ ℕ ℕ)) E env env', 1 ∉ l → env 1 = none →
      buildEnv sem nodes E ins l env = some env' → env' 1 = none := by
    intro l
    induction l with
    | nil => intro nodes E env env' _ h h'; simp only [buildEnv, Option.some.injEq] at h'; rw [← h', h]
    | cons a l ih =>
      intro nodes E env env' hl h h'
      simp only [buildEnv] at h'
      rw [Option.bind_eq_some_iff] at h'
      obtain ⟨v, _, h'⟩ := h'
      simp only [List.mem_cons, not_or] at hl
      exact ih nodes E _ env' hl.2 (by simp [hl.1, h]) h'
  unfold rebuilt
  rw [show read (⟨[.placeholder, .func 11 ⟨none, [.node 0], []⟩, .func 12 ⟨none, [.node 0], []⟩,
    .func 13 ⟨none, [.node 1, .lit 0], []⟩], [2, 1]⟩ : FxW) = some (⟨[0, 2], [⟨0, 2, 0⟩]⟩, [2, 1]) from by rfl]
  simp only [Option.bind_some]
  rw [Option.bind_eq_none_iff]
  intro env' he
  have := hgen order _ _ _ env' hno rfl he
  rw [List.mapM_cons, List.mapM_cons, this]
  cases env' 2 <;> rfl

end MCT.Torch
