/-
The active target platform of a `with` block (C46): programs that enter blocks, attach layers, raise and
catch exceptions.
-/
import Mathlib.Tactic.Cases

namespace MCT.TpcContext

/-- Programs using `with framework_capabilities:` blocks.  `attach k` creates a component (such as
`OperationsSetToLayers`) in the active platform; `block f ok body` is `with f: body`, where `ok` tells
whether the mappings of `f` can be built at the end of the block; `try_ p q` is `try: p except: q`. -/
inductive Prog
  | skip
  | raise
  | attach (k : Nat)
  | seq (p q : Prog)
  | try_ (p q : Prog)
  | block (f : Nat) (ok : Bool) (body : Prog)

/-- `_current_tpc.tpc`, the platforms that are finalized (`_initialized`), and the components of each.
current_tpc.py 27-68, immutable.py 20-57. -/
structure St where
  cur : Option Nat
  done : List Nat
  comps : List (Nat × Nat)
  deriving DecidableEq

/-- `FrameworkQuantizationCapabilities.__enter__`, framework_quantization_capabilities.py 155-160. -/
def enter (f : Nat) (s : St) : St := { s with cur := some f }

/-- `FrameworkQuantizationCapabilities.__exit__`, framework_quantization_capabilities.py 162-172: an
exception is raised again before the reset; the mappings are assigned before the reset, which fails for a
finalized platform; the result tells whether an exception leaves the block. -/
def exit (f : Nat) (ok raised : Bool) (s : St) : St × Bool :=
  if raised then (s, true)
  else if ok = false then (s, true)
  else if f ∈ s.done then (s, true)
  else ({ s with cur := none, done := s.done ++ [f] }, false)

/-- `FrameworkQuantizationCapabilitiesComponent.__init__` (framework_quantization_capabilities_component.py
19-22) with `append_component` (framework_quantization_capabilities.py 142-153): it fails without an active
platform and on a finalized one.  The validation of the layers is not modelled here. -/
def attachTo (k : Nat) (s : St) : St × Bool :=
  match s.cur with
  | none => (s, true)
  | some f => if f ∈ s.done then (s, true) else ({ s with comps := s.comps ++ [(f, k)] }, false)

/-- Execution: the final state, and whether an exception leaves the program. -/
def run : Prog → St → St × Bool
  | .skip, s => (s, false)
  | .raise, s => (s, true)
  | .attach k, s => attachTo k s
  | .seq p q, s => match run p s with
    | (s', true) => (s', true)
    | (s', false) => run q s'
  | .try_ p q, s => match run p s with
    | (s', true) => run q s'
    | (s', false) => (s', false)
  | .block f ok body, s => match run body (enter f s) with
    | (s', r) => exit f ok r s'

end MCT.TpcContext

namespace MCT.TpcContextSpec
open MCT.TpcContext

/-- No block inside. -/
def Flat : Prog → Prop
  | .seq p q => Flat p ∧ Flat q
  | .try_ p q => Flat p ∧ Flat q
  | .block _ _ _ => False
  | _ => True

/-- No `try` inside. -/
def NoTry : Prog → Prop
  | .seq p q => NoTry p ∧ NoTry q
  | .try_ _ _ => False
  | .block _ _ p => NoTry p
  | _ => True

/-- The statement of the property: whenever a block has been left, no platform is active. -/
def RestoredOnEveryExit : Prop :=
  ∀ f ok body s, (run (.block f ok body) s).1.cur = none

end MCT.TpcContextSpec

namespace MCT.TpcContext
open MCT.TpcContextSpec

/-- C46.  A block that is left without an exception leaves no active platform, and finalizes its platform. -/
theorem C46_normal_partial (f : Nat) (ok : Bool) (body : Prog) (s s' : St)
    (h : run (.block f ok body) s = (s', false)) : s'.cur = none ∧ f ∈ s'.done := by
  simp only [run] at h
  rcases hr : run body (enter f s) with ⟨s1, r⟩
  rw [hr] at h
  simp only [exit] at h
  split at h
  · simp at h
  · split at h
    · simp at h
    · split at h
      · simp at h
      · simp only [Prod.mk.injEq, and_true] at h
        subst h
        simp

/-- C46.  A program without `try` that ends normally, started without an active platform, ends without one. -/
theorem C46_program_partial (p : Prog) (hp : NoTry p) (s s' : St) (hs : s.cur = none)
    (h : run p s = (s', false)) : s'.cur = none := by
  induction p generalizing s s' with
  | skip => simp only [run, Prod.mk.injEq, and_true] at h; rw [← h]; exact hs
  | raise => simp [run] at h
  | attach k => simp [run, attachTo, hs] at h
  | seq p q ihp ihq =>
    simp only [run] at h
    rcases hr : run p s with ⟨s1, r⟩
    rw [hr] at h
    cases r with
    | true => simp at h
    | false => exact ihq hp.2 s1 s' (ihp hp.1 s s1 hs hr) h
  | try_ p q => exact absurd hp id
  | block f ok body ih => exact (C46_normal_partial f ok body s s' h).1

/-- C46.  A new block does not depend on the platform left active by earlier ones: a block entered from two
states that differ only in the active platform has the same effects. -/
theorem C46_new_block (f : Nat) (ok : Bool) (body : Prog) (c c' : Option Nat) (done : List Nat)
    (comps : List (Nat × Nat)) :
    run (.block f ok body) ⟨c, done, comps⟩ = run (.block f ok body) ⟨c', done, comps⟩ := rfl

theorem flat_run (p : Prog) (hp : Flat p) (s : St) :
    (run p s).1.cur = s.cur ∧ (run p s).1.done = s.done ∧
      ∃ l, (run p s).1.comps = s.comps ++ l ∧ ∀ c ∈ l, s.cur = some c.1 := by
  induction p generalizing s with
  | skip => exact ⟨rfl, rfl, [], by simp [run], by simp⟩
  | raise => exact ⟨rfl, rfl, [], by simp [run], by simp⟩
  | attach k =>
    simp only [run, attachTo]
    cases hc : s.cur with
    | none => exact ⟨hc, rfl, [], by simp, by simp⟩
    | some f =>
      simp only
      split
      · exact ⟨hc, rfl, [], by simp, by simp⟩
      · exact ⟨rfl, rfl, [(f, k)], rfl, by simp⟩
  | seq p q ihp ihq =>
    obtain ⟨a1, a2, l, a3, a4⟩ := ihp hp.1 s
    simp only [run]
    rcases hr : run p s with ⟨s1, r⟩
    rw [hr] at a1 a2 a3
    cases r with
    | true => exact ⟨a1, a2, l, a3, a4⟩
    | false =>
      obtain ⟨b1, b2, l', b3, b4⟩ := ihq hp.2 s1
      refine ⟨b1.trans a1, b2.trans a2, l ++ l', ?_, ?_⟩
      · rw [b3]; simp only at a3; rw [a3, List.append_assoc]
      · intro c hc
        rcases List.mem_append.mp hc with hc | hc
        · exact a4 c hc
        · rw [← a1]; exact b4 c hc
  | try_ p q ihp ihq =>
    obtain ⟨a1, a2, l, a3, a4⟩ := ihp hp.1 s
    simp only [run]
    rcases hr : run p s with ⟨s1, r⟩
    rw [hr] at a1 a2 a3
    cases r with
    | false => exact ⟨a1, a2, l, a3, a4⟩
    | true =>
      obtain ⟨b1, b2, l', b3, b4⟩ := ihq hp.2 s1
      refine ⟨b1.trans a1, b2.trans a2, l ++ l', ?_, ?_⟩
      · rw [b3]; simp only at a3; rw [a3, List.append_assoc]
      · intro c hc
        rcases List.mem_append.mp hc with hc | hc
        · exact a4 c hc
        · rw [← a1]; exact b4 c hc
  | block f ok body => exact absurd hp id

/-- C46.  In a block without inner blocks, every component goes to the platform of the block, whatever
happened before, and whether or not an exception leaves the block. -/
theorem C46_components (f : Nat) (ok : Bool) (body : Prog) (hb : Flat body) (s : St) :
    ∃ l, (run (.block f ok body) s).1.comps = s.comps ++ l ∧ ∀ c ∈ l, c.1 = f := by
  obtain ⟨_, _, l, h1, h2⟩ := flat_run body hb (enter f s)
  refine ⟨l, ?_, ?_⟩
  · simp only [run]
    rcases hr : run body (enter f s) with ⟨s1, r⟩
    rw [hr] at h1
    simp only at h1 ⊢
    unfold exit
    split
    · exact h1
    · split
      · exact h1
      · split <;> exact h1
  · intro c hc
    have := h2 c hc
    simp only [enter, Option.some.injEq] at this
    exact this.symm

/-- C46.  A platform that is finalized stays as it is: no program adds a component to it. -/
theorem C46_finalized (p : Prog) (s : St) (f : Nat) (hf : f ∈ s.done) :
    f ∈ (run p s).1.done ∧
      (run p s).1.comps.filter (fun c => c.1 == f) = s.comps.filter (fun c => c.1 == f) := by
  induction p generalizing s with
  | skip => exact ⟨hf, rfl⟩
  | raise => exact ⟨hf, rfl⟩
  | attach k =>
    simp only [run, attachTo]
    cases hc : s.cur with
    | none => exact ⟨hf, rfl⟩
    | some g =>
      simp only
      split
      · exact ⟨hf, rfl⟩
      · rename_i hg
        refine ⟨hf, ?_⟩
        simp only [List.filter_append]
        have : (g == f) = false := by
          simp only [beq_eq_false_iff_ne]
          intro hh; rw [hh] at hg; exact hg hf
        simp [List.filter, this]
  | seq p q ihp ihq =>
    obtain ⟨a1, a2⟩ := ihp s hf
    simp only [run]
    rcases hr : run p s with ⟨s1, r⟩
    rw [hr] at a1 a2
    cases r with
    | true => exact ⟨a1, a2⟩
    | false =>
      obtain ⟨b1, b2⟩ := ihq s1 a1
      exact ⟨b1, b2.trans a2⟩
  | try_ p q ihp ihq =>
    obtain ⟨a1, a2⟩ := ihp s hf
    simp only [run]
    rcases hr : run p s with ⟨s1, r⟩
    rw [hr] at a1 a2
    cases r with
    | false => exact ⟨a1, a2⟩
    | true =>
      obtain ⟨b1, b2⟩ := ihq s1 a1
      exact ⟨b1, b2.trans a2⟩
  | block g ok body ih =>
    obtain ⟨a1, a2⟩ := ih (enter g s) hf
    simp only [run]
    rcases hr : run body (enter g s) with ⟨s1, r⟩
    rw [hr] at a1 a2
    unfold exit
    split
    · exact ⟨a1, a2⟩
    · split
      · exact ⟨a1, a2⟩
      · split
        · exact ⟨a1, a2⟩
        · exact ⟨List.mem_append_left _ a1, a2⟩

/-- C46 does not hold: after an exception inside the block its platform stays active. -/
theorem C46_exception_violated : ¬ RestoredOnEveryExit := by
  intro h
  have := h 1 true .raise ⟨none, [], []⟩
  simp [run, exit, enter] at this

/-- C46 does not hold: after a caught exception, a component created outside of any block is silently added
to the platform of the failed block, instead of being refused. -/
theorem C46_outside_violated :
    run (.seq (.try_ (.block 1 true .raise) .skip) (.attach 7)) ⟨none, [], []⟩ =
      (⟨some 1, [], [(1, 7)]⟩, false) ∧
    (run (.attach 7) ⟨none, [], []⟩).2 = true := by decide +kernel

/-- C46: a component can be attached exactly while a platform is active that is not finalized; otherwise there is an
exception and nothing changes. -/
theorem C46_refused (k : Nat) (s : St) :
    ((run (.attach k) s).2 = true ↔ ∀ f, s.cur = some f → f ∈ s.done) ∧
      ((run (.attach k) s).2 = true → (run (.attach k) s).1 = s) ∧
      ∀ f, s.cur = some f → f ∉ s.done → (run (.attach k) s).1 = { s with comps := s.comps ++ [(f, k)] } := by
  simp only [run, attachTo]
  cases hc : s.cur with
  | none => simp
  | some f => by_cases hf : f ∈ s.done <;> simp [hf]

/-- C46 does not hold for nested blocks: after the inner block, the outer one has no active platform. -/
theorem C46_nested_violated :
    (run (.block 1 true (.seq (.block 2 true .skip) (.attach 7))) ⟨none, [], []⟩).2 = true ∧
    (run (.block 1 true (.attach 7)) ⟨none, [], []⟩).2 = false := by decide +kernel

example : run (.seq (.block 1 true (.attach 5)) (.block 2 true (.seq (.attach 6) (.attach 7))))
    ⟨none, [], []⟩ = (⟨none, [1, 2], [(1, 5), (2, 6), (2, 7)]⟩, false) := by decide +kernel
example : NoTry (.seq (.block 1 true (.attach 5)) (.block 2 true (.attach 6))) ∧ Flat (.attach 5) := by
  simp [NoTry, Flat]

end MCT.TpcContext
