/-
The training loop of GPTQ: which parameters it changes, and by what.

Sources (all under /repo/model_compression_toolkit):
  gptq/pytorch/gptq_training.py 228-254     train: the parameters given to the optimizers
  gptq/pytorch/gptq_training.py 256-299     compute_gradients
  gptq/pytorch/gptq_training.py 301-329     micro_training_loop
  gptq/keras/gptq_training.py 276-323       compute_gradients
  gptq/keras/gptq_training.py 386-426       micro_training_loop

What an optimizer does with one parameter, the loss and its gradient are parameters of the model.
-/
import Mathlib.Algebra.Group.Basic
import Mathlib.Data.List.Basic
import Mathlib.Data.List.Nodup
import Mathlib.Algebra.Group.Int.Defs
import Verif.Train.Optimizers

namespace MCT.Loop

set_option linter.unusedSectionVars false
set_option linter.unusedVariables false

variable {O P V G M B : Type*} [DecidableEq O] [DecidableEq P] [AddMonoid G]

/-! ## Model -/

/-- The values of the parameters, what each optimizer remembers of each of them, the gradients they
hold and the parameters the optimizers hold. -/
structure St (O P V G M : Type*) where
  val : P → V
  mem : O → P → M
  grad : P → G
  groups : O → List P

/-- `optimizer.param_groups.clear(); optimizer.add_param_group({'params': params})` for each
optimizer with its parameters.  pytorch/gptq_training.py 235-239. -/
def setGroups (entries : List (O × List P)) (s : St O P V G M) : St O P V G M :=
  entries.foldl (fun s e => { s with groups := fun o => if o = e.1 then e.2 else s.groups o }) s

/-- `loss_value.backward()`: gradients are added to what the parameters hold, for those that require
them; `g b v` is the gradient of the loss of batch `b` at the values `v`.
A parameter without a gradient is taken to hold the gradient 0.  pytorch/gptq_training.py 276-292. -/
def backward (req : P → Bool) (g : B → (P → V) → P → G) (b : B) (s : St O P V G M) :
    St O P V G M :=
  { s with grad := fun p => if req p then s.grad p + g b s.val p else s.grad p }

/-- `optimizer.step()`: every parameter the optimizer holds is changed by its rule.  The parameters
of a list are different objects, so the order among them does not matter.
pytorch/gptq_training.py 320-321. -/
def optStep (rule : O → M → V → G → M × V) (o : O) (s : St O P V G M) : St O P V G M :=
  { s with
    val := fun p => if p ∈ s.groups o then (rule o (s.mem o p) (s.val p) (s.grad p)).2 else s.val p
    mem := fun o' p => if o' = o ∧ p ∈ s.groups o then (rule o (s.mem o p) (s.val p) (s.grad p)).1
      else s.mem o' p }

/-- `optimizer.zero_grad()`.  pytorch/gptq_training.py 322. -/
def zeroGrad (o : O) (s : St O P V G M) : St O P V G M :=
  { s with grad := fun p => if p ∈ s.groups o then 0 else s.grad p }

/-- The loop over the optimizers after the backward pass.  pytorch/gptq_training.py 320-322. -/
def stepAll (rule : O → M → V → G → M × V) (entries : List (O × List P)) (s : St O P V G M) :
    St O P V G M :=
  entries.foldl (fun s e => zeroGrad e.1 (optStep rule e.1 s)) s

/-- One batch in PyTorch.  pytorch/gptq_training.py 312-322. -/
def torchBatch (rule : O → M → V → G → M × V) (req : P → Bool) (g : B → (P → V) → P → G)
    (entries : List (O × List P)) (s : St O P V G M) (b : B) : St O P V G M :=
  stepAll rule entries (backward req g b s)

/-- `train` in PyTorch: an epoch is a list of batches.
pytorch/gptq_training.py 228-254, 309-311. -/
def torchTrain (rule : O → M → V → G → M × V) (req : P → Bool) (g : B → (P → V) → P → G)
    (entries : List (O × List P)) (epochs : List (List B)) (s : St O P V G M) : St O P V G M :=
  epochs.foldl (fun s bs => bs.foldl (torchBatch rule req g entries) s) (setGroups entries s)

/-- The gradients in Keras are computed for all parameters in one list and cut into the lists of the
optimizers.  keras/gptq_training.py 297-299, 317-323. -/
def cutGrads (grads : List G) : Nat → List (O × List P) → List (List G)
  | _, [] => []
  | i, e :: es => (grads.drop i).take e.2.length :: cutGrads grads (i + e.2.length) es

/-- `o.apply_gradients(zip(grads, p))`.  keras/gptq_training.py 418-419. -/
def applyGrads (rule : O → M → V → G → M × V) (o : O) (ps : List (G × P)) (s : St O P V G M) :
    St O P V G M :=
  ps.foldl (fun s gp => { s with
    val := fun p => if p = gp.2 then (rule o (s.mem o p) (s.val p) gp.1).2 else s.val p
    mem := fun o' p => if o' = o ∧ p = gp.2 then (rule o (s.mem o p) (s.val p) gp.1).1
      else s.mem o' p }) s

/-- One batch in Keras.  keras/gptq_training.py 404-419. -/
def kerasBatch (rule : O → M → V → G → M × V) (g : B → (P → V) → P → G)
    (entries : List (O × List P)) (s : St O P V G M) (b : B) : St O P V G M :=
  (entries.zip (cutGrads ((entries.flatMap Prod.snd).map (g b s.val)) 0 entries)).foldl
    (fun s eg => applyGrads rule eg.1.1 (eg.2.zip eg.1.2) s) s

/-- `train` in Keras, which does nothing without parameters to train.
common/gptq_training.py 126-127, keras/gptq_training.py 325-337, 402-404. -/
def kerasTrain (rule : O → M → V → G → M × V) (g : B → (P → V) → P → G)
    (entries : List (O × List P)) (epochs : List (List B)) (s : St O P V G M) : St O P V G M :=
  if 0 < (entries.map (fun e => e.2.length)).sum then
    epochs.foldl (fun s bs => bs.foldl (kerasBatch rule g entries) s) s
  else s

/-- The optimizers of the configuration both facades make: those of the user or the defaults, and
always one of its own for the biases.  pytorch/quantization_facade.py 101-104, 136-138,
keras/quantization_facade.py 111-113, 141-150. -/
def facadeCfg {O : Type} (main rest : Option O) (adam adamRest sgd : O) : MCT.Train.OptCfg O :=
  ⟨main.getD adam, some (rest.getD adamRest), some sgd, none, true, false⟩

/-! ## Specification -/

/-- The optimizer a parameter is given to, if any. -/
def owner (entries : List (O × List P)) (p : P) : Option O :=
  (entries.find? (fun e => decide (p ∈ e.2))).map Prod.fst

/-- What a batch should do: all parameters that are trained change at once, each by its optimizer and
by the gradient of this batch at the values before it; nothing else changes. -/
def ideal (rule : O → M → V → G → M × V) (g : B → (P → V) → P → G) (entries : List (O × List P))
    (s : (P → V) × (O → P → M)) (b : B) : (P → V) × (O → P → M) :=
  (fun p => match owner entries p with
    | some o => (rule o (s.2 o p) (s.1 p) (g b s.1 p)).2
    | none => s.1 p,
   fun o p => if owner entries p = some o then (rule o (s.2 o p) (s.1 p) (g b s.1 p)).1 else s.2 o p)

/-! ## Proofs -/

theorem owner_cons (e : O × List P) (es : List (O × List P)) (p : P) :
    owner (e :: es) p = if p ∈ e.2 then some e.1 else owner es p := by
  unfold owner
  rw [List.find?_cons]
  by_cases h : p ∈ e.2 <;> simp [h]

theorem owner_none {es : List (O × List P)} {p : P} (h : ∀ e ∈ es, p ∉ e.2) : owner es p = none := by
  induction es with
  | nil => rfl
  | cons e es ih =>
    rw [owner_cons, if_neg (h e (by simp)), ih (fun x hx => h x (by simp [hx]))]

theorem owner_mem {es : List (O × List P)} {p : P} {o : O} (h : owner es p = some o) :
    ∃ e ∈ es, e.1 = o ∧ p ∈ e.2 := by
  unfold owner at h
  obtain ⟨e, he, rfl⟩ := Option.map_eq_some_iff.mp h
  refine ⟨e, List.mem_of_find?_eq_some he, rfl, ?_⟩
  simpa using List.find?_some he

theorem groups_stepAll (rule : O → M → V → G → M × V) : ∀ (es : List (O × List P))
    (s : St O P V G M), (stepAll rule es s).groups = s.groups
  | [], s => rfl
  | e :: es, s => by
    unfold stepAll
    rw [List.foldl_cons]
    exact groups_stepAll rule es _

/-- The loop over the optimizers. -/
theorem stepAll_spec (rule : O → M → V → G → M × V) : ∀ (es : List (O × List P))
    (s : St O P V G M), (∀ e ∈ es, s.groups e.1 = e.2) → (es.flatMap Prod.snd).Nodup →
    (∀ p, (stepAll rule es s).val p = match owner es p with
      | some o => (rule o (s.mem o p) (s.val p) (s.grad p)).2
      | none => s.val p) ∧
    (∀ o p, (stepAll rule es s).mem o p = if owner es p = some o then
      (rule o (s.mem o p) (s.val p) (s.grad p)).1 else s.mem o p) ∧
    (∀ p, (stepAll rule es s).grad p = if (owner es p).isSome then 0 else s.grad p)
  | [], s, _, _ => by simp [stepAll, owner]
  | e :: es, s, hg, hnd => by
    have hnd' : (es.flatMap Prod.snd).Nodup := by
      rw [List.flatMap_cons, List.nodup_append] at hnd
      exact hnd.2.1
    have hdis : ∀ p, p ∈ e.2 → ∀ x ∈ es, p ∉ x.2 := by
      intro p hp x hx hpx
      rw [List.flatMap_cons, List.nodup_append] at hnd
      exact hnd.2.2 p hp p (List.mem_flatMap.mpr ⟨x, hx, hpx⟩) rfl
    have he := hg e (by simp)
    obtain ⟨i1, i2, i3⟩ := stepAll_spec rule es (zeroGrad e.1 (optStep rule e.1 s))
      (fun x hx => hg x (by simp [hx])) hnd'
    have hunf : stepAll rule (e :: es) s = stepAll rule es (zeroGrad e.1 (optStep rule e.1 s)) := by
      unfold stepAll; rw [List.foldl_cons]
    rw [hunf]
    refine ⟨fun p => ?_, fun o p => ?_, fun p => ?_⟩
    · rw [i1 p, owner_cons]
      by_cases hp : p ∈ e.2
      · rw [owner_none (hdis p hp), if_pos hp]
        simp [zeroGrad, optStep, he, hp]
      · rw [if_neg hp]
        cases owner es p with
        | none => simp [zeroGrad, optStep, he, hp]
        | some o => simp [zeroGrad, optStep, he, hp]
    · rw [i2 o p, owner_cons]
      by_cases hp : p ∈ e.2
      · rw [owner_none (hdis p hp), if_pos hp]
        by_cases ho : e.1 = o
        · subst ho; simp [zeroGrad, optStep, he, hp]
        · simp [zeroGrad, optStep, he, hp, ho, Ne.symm ho]
      · rw [if_neg hp]
        simp [zeroGrad, optStep, he, hp]
    · rw [i3 p, owner_cons]
      by_cases hp : p ∈ e.2
      · rw [owner_none (hdis p hp), if_pos hp]
        simp [zeroGrad, optStep, he, hp]
      · rw [if_neg hp]
        simp [zeroGrad, optStep, he, hp]

theorem setGroups_spec : ∀ (es : List (O × List P)) (s : St O P V G M),
    (setGroups es s).val = s.val ∧ (setGroups es s).mem = s.mem ∧ (setGroups es s).grad = s.grad ∧
    (∀ o, o ∉ es.map Prod.fst → (setGroups es s).groups o = s.groups o) ∧
    ((es.map Prod.fst).Nodup → ∀ e ∈ es, (setGroups es s).groups e.1 = e.2)
  | [], s => by simp [setGroups]
  | e :: es, s => by
    have hunf : setGroups (e :: es) s = setGroups es
        ({ s with groups := fun o => if o = e.1 then e.2 else s.groups o } : St O P V G M) := by
      unfold setGroups; rw [List.foldl_cons]
    rw [hunf]
    obtain ⟨a, b, c, d, f⟩ := setGroups_spec es
      ({ s with groups := fun o => if o = e.1 then e.2 else s.groups o } : St O P V G M)
    refine ⟨a, b, c, fun o ho => ?_, fun hnd x hx => ?_⟩
    · simp only [List.map_cons, List.mem_cons, not_or] at ho
      rw [d o ho.2]
      simp [ho.1]
    · simp only [List.map_cons, List.nodup_cons] at hnd
      rcases List.mem_cons.mp hx with rfl | hx
      · rw [d _ hnd.1]; simp
      · exact f hnd.2 x hx

/-- What the loop keeps between batches in PyTorch. -/
structure Ready (req : P → Bool) (entries : List (O × List P)) (s : St O P V G M) : Prop where
  groups : ∀ e ∈ entries, s.groups e.1 = e.2
  grads : ∀ e ∈ entries, ∀ p ∈ e.2, s.grad p = 0

theorem torchBatch_spec {rule : O → M → V → G → M × V} {req : P → Bool} {g : B → (P → V) → P → G}
    {entries : List (O × List P)} (hnd : (entries.flatMap Prod.snd).Nodup)
    (hreq : ∀ e ∈ entries, ∀ p ∈ e.2, req p = true) {s : St O P V G M} (hr : Ready req entries s)
    (b : B) :
    Ready req entries (torchBatch rule req g entries s b) ∧
      ((torchBatch rule req g entries s b).val, (torchBatch rule req g entries s b).mem)
        = ideal rule g entries (s.val, s.mem) b := by
  obtain ⟨h1, h2, h3⟩ := stepAll_spec rule entries (backward req g b s) hr.groups hnd
  have hgr : ∀ p o, owner entries p = some o → (backward req g b s).grad p = g b s.val p := by
    intro p o ho
    obtain ⟨e, he, _, hp⟩ := owner_mem ho
    simp [backward, hreq e he p hp, hr.grads e he p hp]
  refine ⟨⟨?_, ?_⟩, ?_⟩
  · intro e he
    unfold torchBatch
    rw [groups_stepAll]
    exact hr.groups e he
  · intro e he p hp
    unfold torchBatch
    rw [h3 p]
    have : (owner entries p).isSome = true := by
      unfold owner
      rw [Option.isSome_map, List.find?_isSome]
      exact ⟨e, he, by simpa using hp⟩
    rw [if_pos this]
  · unfold torchBatch ideal
    refine Prod.ext ?_ ?_
    · funext p
      dsimp only
      rw [h1 p]
      cases ho : owner entries p with
      | none => rfl
      | some o => simp only [hgr p o ho]; rfl
    · funext o p
      dsimp only
      rw [h2 o p]
      by_cases ho : owner entries p = some o
      · simp only [ho, if_true, hgr p o ho]; rfl
      · simp only [ho, if_false]; rfl

/-- C156 (PyTorch): with different optimizers for different, disjoint lists of parameters, whatever
the batches, epochs, optimizers and the loss, training is one simultaneous update of exactly the
parameters in the lists per batch, each by its optimizer and by the gradient of this batch alone. -/
theorem C156_torch (rule : O → M → V → G → M × V) (req : P → Bool) (g : B → (P → V) → P → G)
    (entries : List (O × List P)) (hopt : (entries.map Prod.fst).Nodup)
    (hnd : (entries.flatMap Prod.snd).Nodup) (hreq : ∀ e ∈ entries, ∀ p ∈ e.2, req p = true)
    (epochs : List (List B)) (s : St O P V G M) (hs : ∀ e ∈ entries, ∀ p ∈ e.2, s.grad p = 0) :
    ((torchTrain rule req g entries epochs s).val, (torchTrain rule req g entries epochs s).mem)
      = epochs.flatten.foldl (ideal rule g entries) (s.val, s.mem) := by
  have batches : ∀ (bs : List B) (s : St O P V G M), Ready req entries s →
      Ready req entries (bs.foldl (torchBatch rule req g entries) s) ∧
      ((bs.foldl (torchBatch rule req g entries) s).val,
        (bs.foldl (torchBatch rule req g entries) s).mem)
        = bs.foldl (ideal rule g entries) (s.val, s.mem) := by
    intro bs
    induction bs with
    | nil => intro s h; exact ⟨h, rfl⟩
    | cons b bs ih =>
      intro s h
      obtain ⟨h1, h2⟩ := torchBatch_spec (rule := rule) (g := g) hnd hreq h b
      obtain ⟨h3, h4⟩ := ih _ h1
      rw [List.foldl_cons, List.foldl_cons]
      exact ⟨h3, by rw [h4, h2]⟩
  have all : ∀ (es : List (List B)) (s : St O P V G M), Ready req entries s →
      ((es.foldl (fun s bs => bs.foldl (torchBatch rule req g entries) s) s).val,
        (es.foldl (fun s bs => bs.foldl (torchBatch rule req g entries) s) s).mem)
        = es.flatten.foldl (ideal rule g entries) (s.val, s.mem) := by
    intro es
    induction es with
    | nil => intro s _; rfl
    | cons bs es ih =>
      intro s h
      obtain ⟨h1, h2⟩ := batches bs s h
      rw [List.foldl_cons, List.flatten_cons, List.foldl_append, ← h2]
      exact ih _ h1
  obtain ⟨a, b, c, _, f⟩ := setGroups_spec entries s
  have hr : Ready req entries (setGroups entries s) :=
    ⟨f hopt, fun e he p hp => by rw [c]; exact hs e he p hp⟩
  have := all epochs _ hr
  rw [a, b] at this
  exact this

/-! ### Keras -/

theorem cut_spec (f : P → G) : ∀ (es : List (O × List P)) (pre : List G),
    cutGrads (pre ++ (es.flatMap Prod.snd).map f) pre.length es = es.map (fun e => e.2.map f)
  | [], _ => rfl
  | e :: es, pre => by
    unfold cutGrads
    rw [List.map_cons]
    have h1 : (List.drop pre.length (pre ++ (List.flatMap Prod.snd (e :: es)).map f))
        = e.2.map f ++ (es.flatMap Prod.snd).map f := by
      rw [List.drop_left, List.flatMap_cons, List.map_append]
    rw [h1]
    have h2 : List.take e.2.length (e.2.map f ++ (es.flatMap Prod.snd).map f) = e.2.map f := by
      have : e.2.length = (e.2.map f).length := by simp
      rw [this, List.take_left]
    rw [h2]
    have h3 := cut_spec f es (pre ++ e.2.map f)
    rw [List.length_append, List.length_map, List.append_assoc, ← List.map_append] at h3
    rw [List.flatMap_cons, h3]

theorem applyGrads_spec (rule : O → M → V → G → M × V) (o : O) (f : P → G) :
    ∀ (ps : List P) (s : St O P V G M), ps.Nodup →
    (∀ p, (applyGrads rule o ((ps.map f).zip ps) s).val p =
      if p ∈ ps then (rule o (s.mem o p) (s.val p) (f p)).2 else s.val p) ∧
    (∀ o' p, (applyGrads rule o ((ps.map f).zip ps) s).mem o' p =
      if o' = o ∧ p ∈ ps then (rule o (s.mem o p) (s.val p) (f p)).1 else s.mem o' p)
  | [], s, _ => by simp [applyGrads]
  | q :: ps, s, hnd => by
    rw [List.nodup_cons] at hnd
    have hunf : applyGrads rule o (((q :: ps).map f).zip (q :: ps)) s
        = applyGrads rule o ((ps.map f).zip ps) ({ s with
          val := fun p => if p = q then (rule o (s.mem o p) (s.val p) (f q)).2 else s.val p
          mem := fun o' p => if o' = o ∧ p = q then (rule o (s.mem o p) (s.val p) (f q)).1
            else s.mem o' p } : St O P V G M) := by
      unfold applyGrads
      rw [List.map_cons, List.zip_cons_cons, List.foldl_cons]
    rw [hunf]
    obtain ⟨h1, h2⟩ := applyGrads_spec rule o f ps ({ s with
          val := fun p => if p = q then (rule o (s.mem o p) (s.val p) (f q)).2 else s.val p
          mem := fun o' p => if o' = o ∧ p = q then (rule o (s.mem o p) (s.val p) (f q)).1
            else s.mem o' p } : St O P V G M) hnd.2
    refine ⟨fun p => ?_, fun o' p => ?_⟩
    · rw [h1 p]
      by_cases hp : p = q
      · subst hp; simp [hnd.1]
      · simp [hp]
    · rw [h2 o' p]
      by_cases hp : p = q
      · subst hp; simp [hnd.1]
      · simp [hp]

theorem kerasLoop_spec (rule : O → M → V → G → M × V) (f : P → G) : ∀ (es : List (O × List P))
    (s : St O P V G M), (es.flatMap Prod.snd).Nodup →
    (∀ p, ((es.zip (es.map (fun e => e.2.map f))).foldl
        (fun s eg => applyGrads rule eg.1.1 (eg.2.zip eg.1.2) s) s).val p = match owner es p with
      | some o => (rule o (s.mem o p) (s.val p) (f p)).2
      | none => s.val p) ∧
    (∀ o p, ((es.zip (es.map (fun e => e.2.map f))).foldl
        (fun s eg => applyGrads rule eg.1.1 (eg.2.zip eg.1.2) s) s).mem o p =
      if owner es p = some o then (rule o (s.mem o p) (s.val p) (f p)).1 else s.mem o p)
  | [], s, _ => by simp [owner]
  | e :: es, s, hnd => by
    rw [List.flatMap_cons, List.nodup_append] at hnd
    have hdis : ∀ p, p ∈ e.2 → ∀ x ∈ es, p ∉ x.2 := by
      intro p hp x hx hpx
      exact hnd.2.2 p hp p (List.mem_flatMap.mpr ⟨x, hx, hpx⟩) rfl
    obtain ⟨a1, a2⟩ := applyGrads_spec rule e.1 f e.2 s hnd.1
    rw [List.map_cons, List.zip_cons_cons, List.foldl_cons]
    obtain ⟨b1, b2⟩ := kerasLoop_spec rule f es
      (applyGrads rule e.1 ((e.2.map f).zip e.2) s) hnd.2.1
    refine ⟨fun p => ?_, fun o p => ?_⟩
    · rw [b1 p, owner_cons]
      by_cases hp : p ∈ e.2
      · rw [owner_none (hdis p hp), if_pos hp]
        simp [a1, hp]
      · rw [if_neg hp]
        cases owner es p with
        | none => simp [a1, hp]
        | some o => simp [a1, a2, hp]
    · rw [b2 o p, owner_cons]
      by_cases hp : p ∈ e.2
      · rw [owner_none (hdis p hp), if_pos hp]
        by_cases ho : e.1 = o
        · subst ho; simp [a2, hp]
        · simp [a2, hp, ho, Ne.symm ho]
      · rw [if_neg hp]
        simp [a1, a2, hp]

/-- C156 (Keras): with disjoint lists of parameters, training is the same sequence of simultaneous
updates: the gradients cut from the list of all gradients are those of the parameters they are
applied to. -/
theorem C156_keras (rule : O → M → V → G → M × V) (g : B → (P → V) → P → G)
    (entries : List (O × List P)) (hnd : (entries.flatMap Prod.snd).Nodup)
    (epochs : List (List B)) (s : St O P V G M) :
    ((kerasTrain rule g entries epochs s).val, (kerasTrain rule g entries epochs s).mem)
      = epochs.flatten.foldl (ideal rule g entries) (s.val, s.mem) := by
  have one : ∀ (s : St O P V G M) (b : B),
      ((kerasBatch rule g entries s b).val, (kerasBatch rule g entries s b).mem)
        = ideal rule g entries (s.val, s.mem) b := by
    intro s b
    unfold kerasBatch ideal
    have hc := cut_spec (g b s.val) entries ([] : List G)
    simp only [List.nil_append, List.length_nil] at hc
    rw [hc]
    obtain ⟨h1, h2⟩ := kerasLoop_spec rule (g b s.val) entries s hnd
    exact Prod.ext (funext h1) (funext fun o => funext fun p => h2 o p)
  have batches : ∀ (bs : List B) (s : St O P V G M),
      ((bs.foldl (kerasBatch rule g entries) s).val, (bs.foldl (kerasBatch rule g entries) s).mem)
        = bs.foldl (ideal rule g entries) (s.val, s.mem) := by
    intro bs
    induction bs with
    | nil => intro s; rfl
    | cons b bs ih => intro s; rw [List.foldl_cons, List.foldl_cons, ih, one]
  have all : ∀ (es : List (List B)) (s : St O P V G M),
      ((es.foldl (fun s bs => bs.foldl (kerasBatch rule g entries) s) s).val,
        (es.foldl (fun s bs => bs.foldl (kerasBatch rule g entries) s) s).mem)
        = es.flatten.foldl (ideal rule g entries) (s.val, s.mem) := by
    intro es
    induction es with
    | nil => intro s; rfl
    | cons bs es ih =>
      intro s
      rw [List.foldl_cons, List.flatten_cons, List.foldl_append, ← batches]
      exact ih _
  unfold kerasTrain
  by_cases hpos : 0 < (entries.map (fun e => e.2.length)).sum
  · rw [if_pos hpos]
    exact all epochs s
  · rw [if_neg hpos]
    have hno : ∀ p : P, owner entries p = none := by
      intro p
      apply owner_none
      intro e he hp
      have h0 : (entries.map (fun e => e.2.length)).sum = 0 := by omega
      have := List.sum_eq_zero_iff_forall_eq_nat.mp h0 e.2.length (List.mem_map.mpr ⟨e, he, rfl⟩)
      rw [List.length_eq_zero_iff] at this
      rw [this] at hp
      simp at hp
    have hid : ∀ x b, ideal rule g entries x b = x := by
      intro x b
      unfold ideal
      simp [hno]
    have : ∀ (bs : List B) (x : (P → V) × (O → P → M)), bs.foldl (ideal rule g entries) x = x := by
      intro bs
      induction bs with
      | nil => intro x; rfl
      | cons b bs ih => intro x; rw [List.foldl_cons, hid, ih]
    rw [this]

/-! ### What is left alone -/

theorem stepAll_untouched (rule : O → M → V → G → M × V) (p : P) : ∀ (es : List (O × List P))
    (s : St O P V G M), (∀ e ∈ es, p ∉ s.groups e.1) → (stepAll rule es s).val p = s.val p
  | [], s, _ => rfl
  | e :: es, s, h => by
    have hunf : stepAll rule (e :: es) s = stepAll rule es (zeroGrad e.1 (optStep rule e.1 s)) := by
      unfold stepAll; rw [List.foldl_cons]
    rw [hunf, stepAll_untouched rule p es (zeroGrad e.1 (optStep rule e.1 s))
      (fun x hx => h x (by simp [hx]))]
    simp [zeroGrad, optStep, h e (by simp)]

theorem train_untouched (rule : O → M → V → G → M × V) (req : P → Bool) (g : B → (P → V) → P → G)
    (entries : List (O × List P)) (epochs : List (List B)) (s : St O P V G M) (p : P)
    (h : ∀ e ∈ entries, p ∉ (setGroups entries s).groups e.1) :
    (torchTrain rule req g entries epochs s).val p = s.val p := by
  have batches : ∀ (bs : List B) (s : St O P V G M), (∀ e ∈ entries, p ∉ s.groups e.1) →
      (bs.foldl (torchBatch rule req g entries) s).groups = s.groups ∧
      (bs.foldl (torchBatch rule req g entries) s).val p = s.val p := by
    intro bs
    induction bs with
    | nil => intro s _; exact ⟨rfl, rfl⟩
    | cons b bs ih =>
      intro s hs
      have hg : (torchBatch rule req g entries s b).groups = s.groups := by
        unfold torchBatch; rw [groups_stepAll]; rfl
      have hv : (torchBatch rule req g entries s b).val p = s.val p := by
        unfold torchBatch
        rw [stepAll_untouched rule p entries (backward req g b s) (fun e he => hs e he)]
        rfl
      obtain ⟨i1, i2⟩ := ih (torchBatch rule req g entries s b) (by rw [hg]; exact hs)
      rw [List.foldl_cons]
      exact ⟨by rw [i1, hg], by rw [i2, hv]⟩
  have all : ∀ (es : List (List B)) (s : St O P V G M), (∀ e ∈ entries, p ∉ s.groups e.1) →
      (es.foldl (fun s bs => bs.foldl (torchBatch rule req g entries) s) s).val p = s.val p := by
    intro es
    induction es with
    | nil => intro s _; rfl
    | cons bs es ih =>
      intro s hs
      obtain ⟨i1, i2⟩ := batches bs s hs
      rw [List.foldl_cons, ih _ (by rw [i1]; exact hs), i2]
  unfold torchTrain
  rw [all epochs _ h, (setGroups_spec entries s).1]

/-- C156, violated: when one optimizer object is given for two lists of parameters (as for the
weights and for the rest), PyTorch training trains the last list only: the parameters of the first
list keep their values whatever the data, the epochs and the loss. -/
theorem C156_one_optimizer_violated (rule : O → M → V → G → M × V) (req : P → Bool)
    (g : B → (P → V) → P → G) (o : O) (ws bs : List P) (hd : ∀ p ∈ ws, p ∉ bs)
    (epochs : List (List B)) (s : St O P V G M) (p : P) (hp : p ∈ ws) :
    (torchTrain rule req g [(o, ws), (o, bs)] epochs s).val p = s.val p := by
  apply train_untouched
  intro e he
  have ho : e.1 = o := by
    simp only [List.mem_cons, List.not_mem_nil, or_false] at he
    rcases he with rfl | rfl <;> rfl
  rw [ho]
  simp [setGroups, hd p hp]

/-- C156: parameters in none of the lists keep their values, in both frameworks, even if they hold
gradients. -/
theorem C156_untouched (rule : O → M → V → G → M × V) (req : P → Bool) (g : B → (P → V) → P → G)
    (entries : List (O × List P)) (hopt : (entries.map Prod.fst).Nodup)
    (hnd : (entries.flatMap Prod.snd).Nodup)
    (epochs : List (List B)) (s : St O P V G M) (p : P) (hp : ∀ e ∈ entries, p ∉ e.2) :
    (torchTrain rule req g entries epochs s).val p = s.val p ∧
      (kerasTrain rule g entries epochs s).val p = s.val p := by
  constructor
  · apply train_untouched
    intro e he
    rw [(setGroups_spec entries s).2.2.2.2 hopt e he]
    exact hp e he
  · have h := congrArg (fun x => x.1 p) (C156_keras rule g entries hnd epochs s)
    simp only at h
    rw [h]
    generalize epochs.flatten = bs
    generalize hm : s.mem = m
    clear h hm
    have : ∀ (bs : List B) (x : (P → V) × (O → P → M)),
        (bs.foldl (ideal rule g entries) x).1 p = x.1 p := by
      intro bs
      induction bs with
      | nil => intro x; rfl
      | cons b bs ih =>
        intro x
        rw [List.foldl_cons, ih]
        simp [ideal, owner_none hp]
    exact this bs _

/-- C156, violated: the optimizer a user gives the facades for the rest, documented as the one for
biases, trains nothing: the biases always go to another, and the weights to the main one, whatever it
is. -/
theorem C156_rest_ignored_violated {O P : Type} (main rest rest' : Option O) (adam adamRest sgd : O)
    (w b q : List P) :
    (MCT.Train.optimizersFor (facadeCfg main rest adam adamRest sgd) w b q
      = MCT.Train.optimizersFor (facadeCfg main rest' adam adamRest sgd) w b q) ∧
    MCT.Train.optimizersFor (facadeCfg main rest adam adamRest sgd) w b q
      = some [(main.getD adam, w), (sgd, b)] := by
  simp [MCT.Train.optimizersFor, facadeCfg]

/-! ### The hypotheses are met -/

/-- Two optimizers (gradient descent with rates 1 and 2) on three parameters, a fourth not trained. -/
def ruleEx : Nat → Unit → Int → Int → Unit × Int := fun o m v g => (m, v - (o + 1) * g)

def gEx : Int → (Nat → Int) → Nat → Int := fun b v p => v p - b

def sEx : St Nat Nat Int Int Unit := ⟨fun p => p, fun _ _ => (), fun _ => 0, fun _ => []⟩

example : ((List.range 4).map
    (torchTrain ruleEx (fun _ => true) gEx [(0, [0, 1]), (1, [2])] [[10], [20]] sEx).val)
    = [20, 20, 22, 3] := by decide

example : ((List.range 4).map
    (kerasTrain ruleEx gEx [(0, [0, 1]), (1, [2])] [[10], [20]] sEx).val)
    = [20, 20, 22, 3] := by decide

/-- One object for both lists: parameters 0 and 1 stay as they were. -/
example : ((List.range 4).map
    (torchTrain ruleEx (fun _ => true) gEx [(0, [0, 1]), (0, [2])] [[10], [20]] sEx).val)
    = [0, 1, 20, 3] := by decide

end MCT.Loop
