/-
Which activations shift negative correction corrects, and the layer that is corrected for them.

Sources (all under /repo/model_compression_toolkit):
  core/common/substitutions/shift_negative_activation.py 483-553   get_next_nodes_to_correct
  core/common/substitutions/shift_negative_activation.py 556-640   apply_shift_negative_correction
  core/keras/back2framework/instance_builder.py 52-70, 103-131     one layer for all calls of a layer
  core/pytorch/back2framework/pytorch_model_builder.py 300-330     the same in PyTorch

The matchers of the frameworks are a classification of the layers (their types are disjoint).
-/
import Verif.Subst.ShiftProps
import Verif.Graph.Model

namespace MCT.Route

open MCT.Graph (Gr Edge nextNodes prevNodes)

set_option linter.unusedSectionVars false
set_option linter.unusedVariables false

variable {N : Type*} [DecidableEq N]

/-! ## Model -/

/-- What the four matchers say about a layer.  keras shift_negative_activation.py 52-84, pytorch
shift_negative_activation.py 63-89. -/
inductive Kind where
  | activation | linear | bypass | padding | other
  deriving DecidableEq, Repr

/-- `get_next_nodes_to_correct` with a bound on the depth of the recursion (the recursion itself has
none); `padded` says whether a linear layer pads.  shift_negative_activation.py 513-553. -/
def walk (g : Gr N) (kind : N → Kind) (padded : N → Bool) :
    Nat → N → Option N → List N → Option (N × Option N × List N)
  | 0, _, _, _ => none
  | k + 1, n, pad, byp =>
    match nextNodes g n with
    | [m] =>
      match kind m with
      | .linear => if pad.isSome && padded m then none else some (m, pad, byp)
      | .bypass => walk g kind padded k m pad (byp ++ [m])
      | .padding => if pad.isNone then walk g kind padded k m (some m) byp else none
      | _ => none
    | _ => none

/-- The tests of one turn of the loop in `apply_shift_negative_correction`: the linear layer, the
padding layer and the bypassed layers `shift_negative_function` is called with, if it is called;
`uniform` says whether some candidate is quantized uniformly and `enabled` whether the outputs are
quantized.  shift_negative_activation.py 611-637. -/
def selects (g : Gr N) (kind : N → Kind) (padded uniform enabled : N → Bool) (k : Nat) (n : N) :
    Option (N × Option N × List N) :=
  if uniform n then none
  else if kind n = .activation then
    (walk g kind padded k n none []).bind (fun r => if enabled n then some r else none)
  else none

/-- The loop: `correct` is `shift_negative_function` (see C37), called on the graph left by the
earlier turns; the nodes are listed before the first.  shift_negative_activation.py 609-640. -/
def applyAll (kind : N → Kind) (padded uniform enabled : N → Bool) (k : Nat)
    (correct : Gr N → N → N × Option N × List N → Gr N) (g : Gr N) : Gr N :=
  g.nodes.foldl (fun g n =>
    match selects g kind padded uniform enabled k n with
    | none => g
    | some r => correct g n r) g

/-! ## Specification -/

/-- The layers `xs` lead from `n` to the linear layer `lin`: each is the only consumer of the one
before, all are bypassed or padding layers, at most one is a padding layer, and if one is, then the
linear layer does not pad. -/
structure Leads (g : Gr N) (kind : N → Kind) (padded : N → Bool) (n : N) (xs : List N) (lin : N) :
    Prop where
  chain : List.IsChain (fun a b => nextNodes g a = [b]) (n :: (xs ++ [lin]))
  between : ∀ x ∈ xs, kind x = .bypass ∨ kind x = .padding
  linear : kind lin = .linear
  onePad : (xs.filter (fun x => decide (kind x = .padding))).length ≤ 1
  notBoth : ∀ x ∈ xs, kind x = .padding → padded lin = false

/-! ## Proofs -/

theorem walk_iff (g : Gr N) (kind : N → Kind) (padded : N → Bool) :
    ∀ (k : Nat) (n : N) (pad : Option N) (byp : List N) (lin : N) (p : Option N) (b : List N),
    walk g kind padded k n pad byp = some (lin, p, b) ↔
      ∃ xs : List N, xs.length < k ∧
        List.IsChain (fun a b => nextNodes g a = [b]) (n :: (xs ++ [lin])) ∧
        (∀ x ∈ xs, kind x = .bypass ∨ kind x = .padding) ∧ kind lin = .linear ∧
        (xs.filter (fun x => decide (kind x = .padding))).length + (if pad.isSome then 1 else 0) ≤ 1 ∧
        (pad.isSome = true → padded lin = false) ∧
        (∀ x ∈ xs, kind x = .padding → padded lin = false) ∧
        b = byp ++ xs.filter (fun x => decide (kind x = .bypass)) ∧
        p = pad.or (xs.filter (fun x => decide (kind x = .padding))).head?
  | 0, n, pad, byp, lin, p, b => by simp [walk]
  | k + 1, n, pad, byp, lin, p, b => by
    have hne : ∀ (l : List N), nextNodes g n = l → (∀ m, l ≠ [m]) → ∀ xs : List N,
        ¬ List.IsChain (fun a b => nextNodes g a = [b]) (n :: (xs ++ [lin])) := by
      intro l hl hm xs hc
      cases xs with
      | nil => simp at hc; exact hm _ (hl ▸ hc)
      | cons x xs => simp at hc; exact hm _ (hl ▸ hc.1)
    unfold walk
    rcases hnx : nextNodes g n with _ | ⟨m, _ | ⟨m', tl⟩⟩
    · simp only [reduceCtorEq, false_iff]
      rintro ⟨xs, _, hc, _⟩
      exact hne _ hnx (by simp) xs hc
    · -- a single consumer `m`
      have hfirst : ∀ xs : List N,
          List.IsChain (fun a b => nextNodes g a = [b]) (n :: (xs ++ [lin])) ↔
          (xs = [] ∧ m = lin) ∨ ∃ ys, xs = m :: ys ∧
            List.IsChain (fun a b => nextNodes g a = [b]) (m :: (ys ++ [lin])) := by
        intro xs
        cases xs with
        | nil => simp [hnx]
        | cons x xs =>
          simp only [List.cons_append, List.isChain_cons_cons, hnx, List.cons.injEq, and_true,
            reduceCtorEq, false_and, false_or]
          constructor
          · rintro ⟨rfl, h⟩; exact ⟨xs, ⟨rfl, rfl⟩, h⟩
          · rintro ⟨ys, ⟨rfl, rfl⟩, h⟩; exact ⟨rfl, h⟩
      simp only
      cases hk : kind m with
      | linear =>
        simp only
        have hiff : (∃ xs : List N, xs.length < k + 1 ∧
            List.IsChain (fun a b => nextNodes g a = [b]) (n :: (xs ++ [lin])) ∧
            (∀ x ∈ xs, kind x = .bypass ∨ kind x = .padding) ∧ kind lin = .linear ∧
            (xs.filter (fun x => decide (kind x = .padding))).length
              + (if pad.isSome then 1 else 0) ≤ 1 ∧
            (pad.isSome = true → padded lin = false) ∧
            (∀ x ∈ xs, kind x = .padding → padded lin = false) ∧
            b = byp ++ xs.filter (fun x => decide (kind x = .bypass)) ∧
            p = pad.or (xs.filter (fun x => decide (kind x = .padding))).head?) ↔
            (m = lin ∧ (pad.isSome = true → padded lin = false) ∧ b = byp ∧ p = pad) := by
          constructor
          · rintro ⟨xs, _, hc, hb, hl, _, hpd, _, rfl, rfl⟩
            rcases (hfirst xs).mp hc with ⟨rfl, rfl⟩ | ⟨ys, rfl, _⟩
            · exact ⟨rfl, hpd, by simp, by simp⟩
            · have := hb m (by simp)
              simp [hk] at this
          · rintro ⟨rfl, hpd, rfl, rfl⟩
            refine ⟨[], by simp, (hfirst []).mpr (Or.inl ⟨rfl, rfl⟩), by simp, hk, ?_, hpd,
              by simp, by simp, by simp⟩
            simp only [List.filter_nil, List.length_nil, Nat.zero_add]
            split <;> omega
        rw [hiff]
        by_cases hc : (pad.isSome && padded m) = true
        · rw [if_pos hc]
          simp only [reduceCtorEq, false_iff]
          rintro ⟨rfl, h, _⟩
          simp only [Bool.and_eq_true] at hc
          rw [h hc.1] at hc
          simp at hc
        · rw [if_neg hc]
          simp only [Option.some.injEq, Prod.mk.injEq]
          constructor
          · rintro ⟨rfl, rfl, rfl⟩
            refine ⟨rfl, fun h => ?_, rfl, rfl⟩
            by_contra hh
            exact hc (by simp [h, Bool.eq_true_of_not_eq_false hh])
          · rintro ⟨rfl, _, rfl, rfl⟩
            exact ⟨rfl, rfl, rfl⟩
      | bypass =>
        simp only
        rw [walk_iff g kind padded k m pad (byp ++ [m]) lin p b]
        constructor
        · rintro ⟨ys, hlt, hc, hb, hl, h1, h2, h3, rfl, rfl⟩
          refine ⟨m :: ys, by simp; omega, (hfirst _).mpr (Or.inr ⟨ys, rfl, hc⟩), ?_, hl, ?_, h2, ?_,
            ?_, ?_⟩
          · intro x hx
            rcases List.mem_cons.mp hx with rfl | hx
            · exact Or.inl hk
            · exact hb x hx
          · simpa [List.filter_cons, hk] using h1
          · intro x hx hp
            rcases List.mem_cons.mp hx with rfl | hx
            · rw [hk] at hp; exact absurd hp (by decide)
            · exact h3 x hx hp
          · simp [List.filter_cons, hk]
          · simp [List.filter_cons, hk]
        · rintro ⟨xs, hlt, hc, hb, hl, h1, h2, h3, rfl, rfl⟩
          rcases (hfirst xs).mp hc with ⟨rfl, rfl⟩ | ⟨ys, rfl, hc'⟩
          · rw [hk] at hl; exact absurd hl (by decide)
          · refine ⟨ys, by simpa using hlt, hc', fun x hx => hb x (by simp [hx]), hl, ?_, h2,
              fun x hx => h3 x (by simp [hx]), ?_, ?_⟩
            · simpa [List.filter_cons, hk] using h1
            · simp [List.filter_cons, hk]
            · simp [List.filter_cons, hk]
      | padding =>
        simp only
        cases pad with
        | some q =>
          simp only [Option.isNone_some, Bool.false_eq_true, if_false, reduceCtorEq, false_iff]
          rintro ⟨xs, hlt, hc, hb, hl, h1, _⟩
          rcases (hfirst xs).mp hc with ⟨rfl, rfl⟩ | ⟨ys, rfl, hc'⟩
          · rw [hk] at hl; exact absurd hl (by decide)
          · simp [List.filter_cons, hk] at h1
        | none =>
          simp only [Option.isNone_none, if_true]
          rw [walk_iff g kind padded k m (some m) byp lin p b]
          constructor
          · rintro ⟨ys, hlt, hc, hb, hl, h1, h2, h3, rfl, rfl⟩
            refine ⟨m :: ys, by simp; omega, (hfirst _).mpr (Or.inr ⟨ys, rfl, hc⟩), ?_, hl, ?_,
              by simp, ?_, ?_, ?_⟩
            · intro x hx
              rcases List.mem_cons.mp hx with rfl | hx
              · exact Or.inr hk
              · exact hb x hx
            · simpa [List.filter_cons, hk] using h1
            · intro x hx _
              exact h2 rfl
            · simp [List.filter_cons, hk]
            · simp [List.filter_cons, hk]
          · rintro ⟨xs, hlt, hc, hb, hl, h1, h2, h3, rfl, rfl⟩
            rcases (hfirst xs).mp hc with ⟨rfl, rfl⟩ | ⟨ys, rfl, hc'⟩
            · rw [hk] at hl; exact absurd hl (by decide)
            · refine ⟨ys, by simpa using hlt, hc', fun x hx => hb x (by simp [hx]), hl, ?_,
                fun _ => h3 m (by simp) hk, fun x hx => h3 x (by simp [hx]), ?_, ?_⟩
              · simpa [List.filter_cons, hk] using h1
              · simp [List.filter_cons, hk]
              · simp [List.filter_cons, hk]
      | activation =>
        simp only [reduceCtorEq, false_iff]
        rintro ⟨xs, hlt, hc, hb, hl, _⟩
        rcases (hfirst xs).mp hc with ⟨rfl, rfl⟩ | ⟨ys, rfl, _⟩
        · rw [hk] at hl; exact absurd hl (by decide)
        · have := hb m (by simp)
          simp [hk] at this
      | other =>
        simp only [reduceCtorEq, false_iff]
        rintro ⟨xs, hlt, hc, hb, hl, _⟩
        rcases (hfirst xs).mp hc with ⟨rfl, rfl⟩ | ⟨ys, rfl, _⟩
        · rw [hk] at hl; exact absurd hl (by decide)
        · have := hb m (by simp)
          simp [hk] at this
    · simp only [reduceCtorEq, false_iff]
      rintro ⟨xs, _, hc, _⟩
      exact hne _ hnx (by simp) xs hc

/-- C155: an activation is corrected exactly when none of its candidates is uniform, its outputs are
quantized and a chain of layers leads from it to a linear layer; the call gets this linear layer, the
padding layer of the chain and its bypassed layers in order. -/
theorem C155_selected (g : Gr N) (kind : N → Kind) (padded uniform enabled : N → Bool) (n lin : N)
    (p : Option N) (b : List N) :
    (∃ k, selects g kind padded uniform enabled k n = some (lin, p, b)) ↔
      kind n = .activation ∧ uniform n = false ∧ enabled n = true ∧
      ∃ xs, Leads g kind padded n xs lin ∧ b = xs.filter (fun x => decide (kind x = .bypass)) ∧
        p = (xs.filter (fun x => decide (kind x = .padding))).head? := by
  constructor
  · rintro ⟨k, h⟩
    unfold selects at h
    split at h
    · exact absurd h (by simp)
    · rename_i hu
      split at h
      · rename_i ha
        obtain ⟨r, hr, hr2⟩ := Option.bind_eq_some_iff.mp h
        split at hr2
        · rename_i he
          have hr3 : r = (lin, p, b) := Option.some.inj hr2
          subst hr3
          obtain ⟨xs, _, h1, h2, h3, h4, h5, h6, h7, h8⟩ := (walk_iff g kind padded k n none [] lin p b).mp hr
          refine ⟨ha, by simpa using hu, he, xs, ⟨h1, h2, h3, by simpa using h4, h6⟩, by simpa using h7,
            by simpa using h8⟩
        · exact absurd hr2 (by simp)
      · exact absurd h (by simp)
  · rintro ⟨ha, hu, he, xs, hL, rfl, rfl⟩
    refine ⟨xs.length + 1, ?_⟩
    unfold selects
    rw [if_neg (by simp [hu]), if_pos ha]
    rw [(walk_iff g kind padded (xs.length + 1) n none [] lin
      (xs.filter (fun x => decide (kind x = .padding))).head?
      (xs.filter (fun x => decide (kind x = .bypass)))).mpr
      ⟨xs, by omega, hL.chain, hL.between, hL.linear, by simpa using hL.onePad, by simp, hL.notBoth,
        by simp, by simp⟩]
    simp [he]

theorem next_prev {g : Gr N} {a b : N} (h : nextNodes g a = [b]) : a ∈ prevNodes g b := by
  have hb : b ∈ nextNodes g a := by rw [h]; simp
  unfold nextNodes MCT.Graph.outEdges at hb
  obtain ⟨e, he, hd⟩ := List.mem_map.mp hb
  simp only [List.mem_filter, decide_eq_true_eq] at he
  unfold prevNodes MCT.Graph.inEdges
  exact List.mem_map.mpr ⟨e, by simp [he.1, hd], he.2⟩

theorem leads_unique {g : Gr N} {kind : N → Kind}
    (hone : ∀ m, kind m ≠ .activation → kind m ≠ .other → ∀ a b, a ∈ prevNodes g m →
      b ∈ prevNodes g m → a = b) :
    ∀ (xs ys : List N) (n₁ n₂ lin : N), kind lin ≠ .activation → kind lin ≠ .other →
    (∀ x ∈ xs, kind x = .bypass ∨ kind x = .padding) →
    (∀ x ∈ ys, kind x = .bypass ∨ kind x = .padding) →
    kind n₁ = .activation → kind n₂ = .activation →
    List.IsChain (fun a b => nextNodes g a = [b]) (n₁ :: (xs ++ [lin])) →
    List.IsChain (fun a b => nextNodes g a = [b]) (n₂ :: (ys ++ [lin])) → n₁ = n₂ := by
  intro xs
  induction xs using List.reverseRecOn with
  | nil =>
    intro ys n₁ n₂ lin hl1 hl2 hx hy h1 h2 hc1 hc2
    have e1 : nextNodes g n₁ = [lin] := by simpa using hc1
    rcases List.eq_nil_or_concat ys with rfl | ⟨zs, z, rfl⟩
    · have e2 : nextNodes g n₂ = [lin] := by simpa using hc2
      exact hone lin hl1 hl2 _ _ (next_prev e1) (next_prev e2)
    · have e2 : nextNodes g z = [lin] := by
        have := List.IsChain.suffix hc2 (l₁ := [z, lin]) ⟨n₂ :: zs, by simp⟩
        simpa using this
      have := hone lin hl1 hl2 _ _ (next_prev e1) (next_prev e2)
      subst this
      have := hy n₁ (by simp)
      rw [h1] at this
      exact absurd this (by decide)
  | append_singleton xs x ih =>
    intro ys n₁ n₂ lin hl1 hl2 hx hy h1 h2 hc1 hc2
    have e1 : nextNodes g x = [lin] := by
      have := List.IsChain.suffix hc1 (l₁ := [x, lin]) ⟨n₁ :: xs, by simp⟩
      simpa using this
    have hxk := hx x (by simp)
    have c1 : List.IsChain (fun a b => nextNodes g a = [b]) (n₁ :: (xs ++ [x])) :=
      List.IsChain.prefix hc1 ⟨[lin], by simp⟩
    rcases List.eq_nil_or_concat ys with rfl | ⟨zs, z, rfl⟩
    · have e2 : nextNodes g n₂ = [lin] := by simpa using hc2
      have := hone lin hl1 hl2 _ _ (next_prev e1) (next_prev e2)
      subst this
      rw [h2] at hxk
      exact absurd hxk (by decide)
    · have e2 : nextNodes g z = [lin] := by
        have := List.IsChain.suffix hc2 (l₁ := [z, lin]) ⟨n₂ :: zs, by simp⟩
        simpa using this
      have := hone lin hl1 hl2 _ _ (next_prev e1) (next_prev e2)
      subst this
      have c2 : List.IsChain (fun a b => nextNodes g a = [b]) (n₂ :: (zs ++ [x])) :=
        List.IsChain.prefix hc2 ⟨[lin], by simp⟩
      refine ih zs n₁ n₂ x ?_ ?_ (fun w hw => hx w (by simp [hw])) (fun w hw => hy w (by simp [hw]))
        h1 h2 c1 c2
      · rcases hxk with h | h <;> rw [h] <;> decide
      · rcases hxk with h | h <;> rw [h] <;> decide

/-- C155: when linear, bypassed and padding layers take one tensor each, no linear layer is
corrected for two activations. -/
theorem C155_once {g : Gr N} {kind : N → Kind} {padded uniform enabled : N → Bool} {n₁ n₂ lin : N}
    {p₁ p₂ : Option N} {b₁ b₂ : List N} {k₁ k₂ : Nat}
    (hone : ∀ m, kind m ≠ .activation → kind m ≠ .other → ∀ a b, a ∈ prevNodes g m →
      b ∈ prevNodes g m → a = b)
    (h₁ : selects g kind padded uniform enabled k₁ n₁ = some (lin, p₁, b₁))
    (h₂ : selects g kind padded uniform enabled k₂ n₂ = some (lin, p₂, b₂)) : n₁ = n₂ := by
  obtain ⟨a1, _, _, xs, L1, _⟩ := (C155_selected _ _ _ _ _ _ _ _ _).mp ⟨k₁, h₁⟩
  obtain ⟨a2, _, _, ys, L2, _⟩ := (C155_selected _ _ _ _ _ _ _ _ _).mp ⟨k₂, h₂⟩
  exact leads_unique hone xs ys n₁ n₂ lin (by rw [L1.linear]; decide) (by rw [L1.linear]; decide)
    L1.between L2.between a1 a2 L1.chain L2.chain

/-- C155: when no activation of the graph is selected, nothing changes; and a property of graphs that
every single correction keeps is kept by the whole loop. -/
theorem C155_loop {kind : N → Kind} {padded uniform enabled : N → Bool} {k : Nat}
    {correct : Gr N → N → N × Option N × List N → Gr N} {g : Gr N} :
    ((∀ n ∈ g.nodes, selects g kind padded uniform enabled k n = none) →
      applyAll kind padded uniform enabled k correct g = g) ∧
    (∀ P : Gr N → Prop, P g →
      (∀ g' n r, P g' → n ∈ g.nodes → selects g' kind padded uniform enabled k n = some r →
        P (correct g' n r)) →
      P (applyAll kind padded uniform enabled k correct g)) := by
  constructor
  · intro h
    unfold applyAll
    have gen : ∀ l : List N, (∀ n ∈ l, selects g kind padded uniform enabled k n = none) →
        l.foldl (fun g n => match selects g kind padded uniform enabled k n with
          | none => g
          | some r => correct g n r) g = g := by
      intro l
      induction l with
      | nil => intro _; rfl
      | cons a l ih =>
        intro h
        rw [List.foldl_cons, h a (by simp)]
        exact ih (fun n hn => h n (by simp [hn]))
    exact gen _ h
  · intro P hP hstep
    unfold applyAll
    have gen : ∀ (l : List N) (g' : Gr N), (∀ n ∈ l, n ∈ g.nodes) → P g' →
        P (l.foldl (fun g n => match selects g kind padded uniform enabled k n with
          | none => g
          | some r => correct g n r) g') := by
      intro l
      induction l with
      | nil => intro g' _ h; exact h
      | cons a l ih =>
        intro g' hl h
        rw [List.foldl_cons]
        apply ih _ (fun n hn => hl n (by simp [hn]))
        cases hs : selects g' kind padded uniform enabled k a with
        | none => exact h
        | some r => exact hstep g' a r h (hl a (by simp)) hs
    exact gen _ _ (fun _ h => h) hP

section Shared
open MCT.Subst MCT.SubstSpec Finset
variable {K P : Type*} [Field K]

/-- C155, violated: a linear layer that is called several times is corrected for each call with the
shift of its own activation, but all calls run the layer built from the first of them: a call whose
activation was shifted by `s` computes with the bias corrected by `s₀`.  What it computes differs
from the original by the difference of the shifts times the sum of the kernel, so it is the original
exactly when the shifts are equal or this sum is zero. -/
theorem C155_shared_violated {c c₀ : Conv K} (hv : c.Valid) {s s₀ : K}
    (h : correctBias c s₀ = some c₀) (src : P → Nat → Option P) (X : Nat → P → K) {o : Nat}
    (ho : o < c.cout) (p : P) (hin : ∀ t < c.kh * c.kw, (src p t).isSome = true) :
    c₀.out src (shifted s X) o p = c.out src X o p +
        (s - s₀) * ∑ i ∈ range c.cin, ∑ t ∈ range (c.kh * c.kw), c.weight o i t ∧
      (c₀.out src (shifted s X) o p = c.out src X o p ↔
        s = s₀ ∨ ∑ i ∈ range c.cin, ∑ t ∈ range (c.kh * c.kw), c.weight o i t = 0) := by
  have hX : shifted s X = shifted s₀ (shifted (s - s₀) X) := by
    funext i q
    simp only [shifted]
    ring
  have h1 : c₀.out src (shifted s X) o p = c.out src (shifted (s - s₀) X) o p := by
    rw [hX]
    exact C37_bias_corrected hv h src _ ho p hin
  have h2 : c.out src (shifted (s - s₀) X) o p = c.out src X o p +
      (s - s₀) * ∑ i ∈ range c.cin, ∑ t ∈ range (c.kh * c.kw), c.weight o i t := by
    simp only [Conv.out]
    have : ∑ i ∈ range c.cin, ∑ t ∈ range (c.kh * c.kw),
          c.weight o i t * tap (shifted (s - s₀) X) i (src p t)
        = (∑ i ∈ range c.cin, ∑ t ∈ range (c.kh * c.kw), c.weight o i t * tap X i (src p t)) +
          (s - s₀) * ∑ i ∈ range c.cin, ∑ t ∈ range (c.kh * c.kw), c.weight o i t := by
      rw [mul_sum, ← sum_add_distrib]
      apply sum_congr rfl
      intro i _
      rw [mul_sum, ← sum_add_distrib]
      apply sum_congr rfl
      intro t ht
      obtain ⟨q, hq⟩ := Option.isSome_iff_exists.1 (hin t (mem_range.1 ht))
      rw [hq]
      simp only [tap, shifted]
      ring
    rw [this]
    ring
  refine ⟨h1.trans h2, ?_⟩
  rw [h1.trans h2]
  constructor
  · intro he
    have : (s - s₀) * ∑ i ∈ range c.cin, ∑ t ∈ range (c.kh * c.kw), c.weight o i t = 0 := by
      simpa using he
    rcases mul_eq_zero.mp this with h | h
    · exact Or.inl (sub_eq_zero.mp h)
    · exact Or.inr h
  · rintro (rfl | h)
    · simp
    · simp [h]

end Shared

/-! ### The hypotheses are met -/

/-- A layer with one weight, 1. -/
def cEx : MCT.SubstSpec.Conv ℚ := ⟨.kerasConv, 1, 1, 1, 1, 1, fun _ => 1, none⟩

example : cEx.Valid ∧ (MCT.Subst.correctBias cEx 3).isSome = true ∧
    ∑ i ∈ Finset.range cEx.cin, ∑ t ∈ Finset.range (cEx.kh * cEx.kw), cEx.weight 0 i t = 1 := by
  refine ⟨⟨by decide, by decide, by decide, by decide, by decide, by decide, by decide⟩, rfl, ?_⟩
  simp [cEx, MCT.SubstSpec.Conv.weight]

/-- 0 activation, 1 bypassed, 2 padding, 3 linear. -/
def gEx : Gr Nat := ⟨[0, 1, 2, 3], [⟨0, 1, 0, 0⟩, ⟨1, 2, 0, 0⟩, ⟨2, 3, 0, 0⟩], [0], [(3, 0)]⟩

def kEx : Nat → Kind := fun n =>
  if n = 0 then .activation else if n = 1 then .bypass else if n = 2 then .padding
  else if n = 3 then .linear else .other

example : selects gEx kEx (fun _ => false) (fun _ => false) (fun _ => true) 4 0
    = some (3, some 2, [1]) := by decide

/-- A padding layer before a layer that pads: no correction. -/
example : selects gEx kEx (fun _ => true) (fun _ => false) (fun _ => true) 4 0 = none := by decide

example : ∀ m, kEx m ≠ .activation → kEx m ≠ .other → ∀ a b, a ∈ prevNodes gEx m →
    b ∈ prevNodes gEx m → a = b := by
  intro m _ _ a b ha hb
  have hm : m = 1 ∨ m = 2 ∨ m = 3 := by
    unfold prevNodes MCT.Graph.inEdges at ha
    obtain ⟨e, he, _⟩ := List.mem_map.mp ha
    simp [gEx] at he
    rcases he with ⟨rfl | rfl | rfl, h⟩ <;> simp at h <;> omega
  rcases hm with rfl | rfl | rfl <;> revert a b <;> simp [prevNodes, MCT.Graph.inEdges, gEx]

end MCT.Route
