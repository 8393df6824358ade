/- Which optimizer trains which parameters in GPTQ. -/
import Mathlib.Data.List.Basic
import Mathlib.Data.List.Perm.Basic
import Mathlib.Data.List.Count

namespace MCT.Train

set_option linter.unusedVariables false

/-! ### Model -/

/-- The optimizers of `GradientPTQConfig`, gptq/common/gptq_config.py: `optimizer` always, the others
optional; `train_bias`, and whether quantization parameters are learned. -/
structure OptCfg (O : Type) where
  main : O
  rest : Option O
  bias : Option O
  qparam : Option O
  trainBias : Bool
  learnQ : Bool

/-- `get_optimizer_with_param`, gptq/common/gptq_training.py 138-186; `none` when it raises. -/
def optimizersFor {O P : Type} (c : OptCfg O) (w b q : List P) : Option (List (O × List P)) :=
  if c.trainBias || c.learnQ then
    match
      (if c.trainBias then
        match c.bias with
        | some o => some ([(c.main, w), (o, b)], ([] : List P))
        | none => if c.rest.isNone then none else some ([(c.main, w)], b)
      else some ([(c.main, w)], [])) with
    | none => none
    | some (acc, res) =>
      match
        (if c.learnQ then
          let r := match c.qparam with
            | some o => (acc ++ [(o, q)], res)
            | none => (acc, res ++ q)
          if c.rest.isNone then none else some r
        else some (acc, res)) with
      | none => none
      | some (acc, res) =>
        if res.length > 0 then
          match c.rest with
          | none => none
          | some o => some (acc ++ [(o, res)])
        else some acc
  else some [(c.main, w)]

/-! ### Specification: the parameters that have to be trained, and by which optimizer -/

namespace TrainSpec

/-- The optimizer a group of parameters is trained with: its own when one is given, the remaining one
otherwise. -/
def optimizerOf {O : Type} (own rest : Option O) : Option O := own.orElse (fun _ => rest)

/-- All assignments (optimizer, parameter) to be made. -/
def assignments {O P : Type} (c : OptCfg O) (w b q : List P) : List (Option O × P) :=
  w.map (fun p => (some c.main, p)) ++
  (if c.trainBias then b.map (fun p => (optimizerOf c.bias c.rest, p)) else []) ++
  (if c.learnQ then q.map (fun p => (optimizerOf c.qparam c.rest, p)) else [])

end TrainSpec

/-! ### C93 -/

/-- **C93** every weight, every bias when biases are trained, and every quantization parameter when these are
learned is handed to exactly one optimizer, the one chosen for its group; nothing else is trained. -/
theorem C93_assigned {O P : Type} (c : OptCfg O) (w b q : List P) (r : List (O × List P))
    (h : optimizersFor c w b q = some r) :
    (r.flatMap (fun e => e.2.map (fun p => (some e.1, p)))).Perm (TrainSpec.assignments c w b q) := by
  obtain ⟨om, orr, ob, oq, tb, lq⟩ := c
  unfold optimizersFor at h
  unfold TrainSpec.assignments TrainSpec.optimizerOf
  rcases tb with _ | _ <;> rcases lq with _ | _ <;> rcases ob with _ | ob <;> rcases oq with _ | oq <;>
    rcases orr with _ | orr <;> simp at h ⊢ <;>
    first
    | (subst h; simp; done)
    | (split_ifs at h with hl <;> (try simp at h) <;> subst h <;> simp_all; done)
    | (split_ifs at h with hl
       · simp only [Option.some.injEq] at h; subst h
         simpa using List.Perm.append_left _ List.perm_append_comm
       · simp only [Option.some.injEq] at h; subst h
         have hb : b = [] := by simpa using hl
         simp [hb])

/-- Each optimizer entry has the group it trains; the main optimizer comes first, with the weights. -/
theorem C93_main_first {O P : Type} (c : OptCfg O) (w b q : List P) (r : List (O × List P))
    (h : optimizersFor c w b q = some r) : r.head? = some (c.main, w) := by
  obtain ⟨om, orr, ob, oq, tb, lq⟩ := c
  unfold optimizersFor at h
  rcases tb with _ | _ <;> rcases lq with _ | _ <;> rcases ob with _ | ob <;> rcases oq with _ | oq <;>
    rcases orr with _ | orr <;> simp at h ⊢ <;> first
    | (subst h; simp; done)
    | (split_ifs at h with hl <;> (try simp at h) <;> subst h <;> simp_all; done)

/-- **C93**, when training can start (partial): exactly when the remaining optimizer is given, or quantization
parameters are not learned and biases are not trained or have their own optimizer.  That an optimizer for every
group to be trained is enough is false: `C93_rest_required_violated`. -/
theorem C93_starts_partial {O P : Type} (c : OptCfg O) (w b q : List P) :
    (optimizersFor c w b q).isSome = true ↔
      c.rest.isSome = true ∨ (c.learnQ = false ∧ (c.trainBias = false ∨ c.bias.isSome = true)) := by
  obtain ⟨om, orr, ob, oq, tb, lq⟩ := c
  unfold optimizersFor
  rcases tb with _ | _ <;> rcases lq with _ | _ <;> rcases ob with _ | ob <;> rcases oq with _ | oq <;>
    rcases orr with _ | orr <;> simp <;> split_ifs <;> rfl

/-- **C93** is false when every group has its own optimizer but the remaining one is not given: learning the
quantization parameters is refused, whatever there is to train. -/
theorem C93_rest_required_violated {O P : Type} (o ob oq : O) (tb : Bool) (w b q : List P) :
    optimizersFor ⟨o, none, some ob, some oq, tb, true⟩ w b q = none := by
  cases tb <;> simp [optimizersFor]

example : optimizersFor ⟨0, some 1, none, some 2, true, true⟩ ["w"] ["b"] ["q"] =
    some [(0, ["w"]), (2, ["q"]), (1, ["b"])] := by decide +kernel

end MCT.Train
