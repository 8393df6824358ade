/-
Examples for C113 and C114, and what does not hold.
-/
import Verif.Editor.Props

namespace MCT.Editor
open MCT.Py MCT.Tpc MCT.Cand

/-- Activation configurations with 8 and 4 bits. -/
def exAct (bits : Nat) : Obj :=
  [(.actFn, .fn (.actQuantizer .pot)), (.actParamsFn, .fn (.actParams .pot)), (.actMethod, .meth .pot),
   (.actBits, .nat bits), (.actParams, .none), (.quantMode, .mode .quant)]

/-- Configuration of a weight attribute. -/
def exAttr (bits : Nat) (on : Bool) : Obj :=
  [(.wFn, .fn (.wQuantizer .sym)), (.wParamsFn, .fn (.wParams .sym)), (.wMethod, .meth .sym),
   (.wBits, .nat bits), (.enableW, .bool on), (.wParams, .none)]

/-- Weights with the attributes `c/kernel` and `c/bias`. -/
def exWts (bits : Nat) : WObj :=
  ⟨[(.other 0, .bool true)], [],
   [(['c', '/', 'k', 'e', 'r', 'n', 'e', 'l'], exAttr bits true), (['c', '/', 'b', 'i', 'a', 's'], exAttr 8 false)]⟩

/-- A convolution named `c` and a ReLU named `r`. -/
def exConv (cs : List Cand) : Node Nat :=
  { name := ['c'], type := ⟨1, 1⟩, functional := false, kernel := some ['k', 'e', 'r', 'n', 'e', 'l'],
    body := 5, cands := cs, finalA := .unset, finalW := .unset }

def exRelu (cs : List Cand) : Node Nat :=
  { name := ['r'], type := ⟨2, 2⟩, functional := true, kernel := none, body := 0, cands := cs,
    finalA := .unset, finalW := .unset }

def exSingle : List (Node Nat) :=
  [exConv [⟨exAct 8, exWts 8⟩], exRelu [⟨exAct 8, ⟨[], [], []⟩⟩]]

def exMixed : List (Node Nat) :=
  [exConv [⟨exAct 8, exWts 8⟩, ⟨exAct 8, exWts 4⟩], exRelu [⟨exAct 8, ⟨[], [], []⟩⟩, ⟨exAct 4, ⟨[], [], []⟩⟩]]

theorem wellA_ex (b : Nat) : WellA (exAct b) := ⟨rfl, rfl, rfl⟩

theorem wellW_ex (b : Nat) : WellW (exWts b) := by
  intro k o h
  cases k with
  | pos i => exact absurd h (by simp [WObj.attr, exWts, Dict.get])
  | named s =>
    simp only [WObj.attr, exWts, Dict.get_cons, Dict.get_nil] at h
    split at h
    · have := Option.some.inj h; subst this; exact ⟨rfl, rfl, rfl⟩
    · split at h
      · have := Option.some.inj h; subst this; exact ⟨rfl, rfl, rfl⟩
      · exact absurd h (by simp)

theorem wellW_empty : WellW ⟨[], [], []⟩ := by
  intro k o h
  cases k <;> exact absurd h (by simp [WObj.attr, Dict.get])

theorem well_of {n : Node Nat} (h1 : ∀ c ∈ n.cands, ∃ b, c.act = exAct b)
    (h2 : ∀ c ∈ n.cands, (∃ b, c.wts = exWts b) ∨ c.wts = ⟨[], [], []⟩) (h3 : n.finalA = .unset)
    (h4 : n.finalW = .unset) : Well n := by
  refine ⟨?_, ?_, by simp [h3], by simp [h4], by simp [h3], by simp [h4]⟩
  · intro c hc
    obtain ⟨b, e⟩ := h1 c hc
    rw [e]; exact wellA_ex b
  · intro c hc
    rcases h2 c hc with ⟨b, e⟩ | e
    · rw [e]; exact wellW_ex b
    · rw [e]; exact wellW_empty

theorem well_mixed : ∀ n ∈ exMixed, Well n ∧ n.finalA = .unset ∧ n.finalW = .unset := by
  intro n hn
  simp only [exMixed, List.mem_cons, List.not_mem_nil, or_false] at hn
  rcases hn with e | e <;> subst e
  · refine ⟨well_of ?_ ?_ rfl rfl, rfl, rfl⟩ <;>
    · intro c hc
      simp only [exConv, List.mem_cons, List.not_mem_nil, or_false] at hc
      rcases hc with e | e <;> subst e <;> simp
  · refine ⟨well_of ?_ ?_ rfl rfl, rfl, rfl⟩ <;>
    · intro c hc
      simp only [exRelu, List.mem_cons, List.not_mem_nil, or_false] at hc
      rcases hc with e | e <;> subst e <;> simp

theorem well_single : ∀ n ∈ exSingle, Well n ∧ n.finalA = .unset ∧ n.finalW = .unset := by
  intro n hn
  simp only [exSingle, List.mem_cons, List.not_mem_nil, or_false] at hn
  rcases hn with e | e <;> subst e
  · refine ⟨well_of ?_ ?_ rfl rfl, rfl, rfl⟩ <;>
    · intro c hc
      simp only [exConv, List.mem_cons, List.not_mem_nil, or_false] at hc
      subst hc; simp
  · refine ⟨well_of ?_ ?_ rfl rfl, rfl, rfl⟩ <;>
    · intro c hc
      simp only [exRelu, List.mem_cons, List.not_mem_nil, or_false] at hc
      subst hc; simp

/-- Quantization parameters are computed from the number of bits and the method. -/
def compute (c : Cand) : Cand :=
  { c with act := c.act.set .actParams (match c.act.get .actMethod, c.act.get .actBits with
      | some (.meth m), some (.nat b) => .user (b + 100 * (if m = .uniform then 1 else 0))
      | _, _ => .none) }

def computeAll (n : Node Nat) : List Cand := n.cands.map compute

theorem computed (n : Node Nat) : List.Forall₂ Computed n.cands (computeAll n) := by
  unfold computeAll
  rw [List.forall₂_map_right_iff, List.forall₂_same]
  intro c _
  refine ⟨?_, ⟨rfl, rfl⟩, fun _ => rfl, fun k o h => ⟨o, h, fun _ _ => rfl⟩⟩
  intro p hp
  unfold compute
  rw [Dict.get_set, if_neg hp]

/-- Rules: all layers but the ReLU get 9 bit kernels, the ReLU gets 7 bit activations and then, in its
final configuration, 6 bits. -/
def exRules : List (Rule Nat) :=
  [⟨.not (.type ⟨7, 2⟩), .candW (some (.named ['k', 'e', 'r', 'n', 'e', 'l'])) [(.wBits, .nat 9)]⟩,
   ⟨.name ['r'], .candA [(.actBits, .nat 7), (.other 5, .nat 1)]⟩,
   ⟨.and .any (.scope ['r']), .finalA [(.actBits, .nat 6)]⟩]

theorem exRules_setting : ∀ r ∈ exRules, r.action.Setting := by
  intro r hr
  simp only [exRules, List.mem_cons, List.not_mem_nil, or_false] at hr
  rcases hr with e | e | e <;> subst e <;> trivial

/-- Bits of the kernel and of the activation in the final configurations. -/
def finalBits (g : List (Node Nat)) : List (Option Val × Option Val) :=
  g.map fun n => ((n.finalWts.bind fun w => (w.resolve (.named ['k', 'e', 'r', 'n', 'e', 'l'])).bind fun k =>
    (w.attr k).bind fun o => o.get .wBits), n.finalAct.bind fun o => o.get .actBits)

/-- The hypotheses of the theorems are met, in single and in mixed precision, and the rules act. -/
example : (∀ n ∈ exSingle, Well n ∧ n.finalA = .unset ∧ n.finalW = .unset) ∧
    (∀ n ∈ exMixed, Well n ∧ n.finalA = .unset ∧ n.finalW = .unset) ∧
    (∀ r ∈ exRules, r.action.Setting) ∧
    (∀ m : Node Nat, List.Forall₂ Computed m.cands (computeAll m)) ∧
    (run exRules computeAll (fun _ => .single) exSingle).map finalBits =
      some [(some (.nat 9), some (.nat 8)), (none, some (.nat 6))] ∧
    (run exRules computeAll (fun _ => .chosen 1) exMixed).map finalBits =
      some [(some (.nat 9), some (.nat 8)), (none, some (.nat 6))] := by
  refine ⟨well_single, well_mixed, exRules_setting, computed, ?_, ?_⟩ <;> decide +kernel

/-- Rejected rules: a kernel of a layer without one, and the symmetric LUT for activations. -/
example : (edit [⟨.any, .candW (some (.named ['k', 'e', 'r', 'n', 'e', 'l'])) [(.wBits, .nat 9)]⟩] exSingle).isNone ∧
    (edit [⟨.any, .candAMethod (some .lutSym)⟩] exSingle).isNone ∧
    (edit [⟨.any, .candAMethod (some .uniform)⟩] exSingle).isSome := by decide +kernel

/-- **C114 violated: precedence.** With a rule that sets 4 bits in the final configuration followed by a
rule that sets 8 bits in the candidates, the activations have 4 bits in single precision and 8 bits in
mixed precision: there the final configuration is the chosen candidate, which the second pass changes. -/
theorem C114_order_violated : ∃ rules : List (Rule Nat), (∀ r ∈ rules, r.action.Setting) ∧
    (run rules computeAll (fun _ => .single) exSingle).map finalBits =
      some [(some (.nat 8), some (.nat 4)), (none, some (.nat 4))] ∧
    (run rules computeAll (fun _ => .chosen 0) exMixed).map finalBits =
      some [(some (.nat 8), some (.nat 8)), (none, some (.nat 8))] := by
  refine ⟨[⟨.any, .finalA [(.actBits, .nat 4)]⟩, ⟨.any, .candA [(.actBits, .nat 8)]⟩], ?_, ?_, ?_⟩
  · intro r hr
    simp only [List.mem_cons, List.not_mem_nil, or_false] at hr
    rcases hr with e | e <;> subst e <;> trivial
  · decide +kernel
  · decide +kernel

/-- **C113 violated: activation quantization cannot be switched off by its name.** The configuration has
`enable_activation_quantization`, but a rule that sets it is an error. -/
theorem C113_property_violated : hasAttr .act (exAct 8) .enableAct = true ∧
    edit [⟨.name ['r'], .candA [(.enableAct, .bool false)]⟩] exSingle = none := by
  constructor
  · decide +kernel
  · rw [C113_rejected _ (by simp [Action.Setting]) _ (fun n hn => (well_single n hn).1)]
    refine ⟨exRelu [⟨exAct 8, ⟨[], [], []⟩⟩], by simp [exSingle], _, List.mem_singleton.mpr rfl, rfl, ?_⟩
    exact ⟨by simp [exRelu], (.enableAct, .bool false), by simp, Or.inl rfl⟩

/-- A convolution named `kernel`, as the names of its weights show. -/
def exNamed : Node Nat :=
  { exConv [⟨exAct 8, ⟨[], [],
      [(['k', 'e', 'r', 'n', 'e', 'l', '/', 'k', 'e', 'r', 'n', 'e', 'l'], exAttr 8 true),
       (['k', 'e', 'r', 'n', 'e', 'l', '/', 'b', 'i', 'a', 's'], exAttr 8 false)]⟩⟩] with
    name := ['k', 'e', 'r', 'n', 'e', 'l'] }

/-- **C113 violated: names of layers.** A rule that sets the bits of the kernel is an error for a layer
whose own name contains `kernel`, because then several of its weights have names with `kernel`. -/
theorem C113_layer_name_violated :
    (edit [⟨.any, .candW (some (.named ['k', 'e', 'r', 'n', 'e', 'l'])) [(.wBits, .nat 9)]⟩]
      [exConv [⟨exAct 8, exWts 8⟩]]).isSome = true ∧
    (edit [⟨.any, .candW (some (.named ['k', 'e', 'r', 'n', 'e', 'l'])) [(.wBits, .nat 9)]⟩]
      [exNamed]).isNone = true := by
  constructor <;> decide +kernel

/-- **C114 violated: layers are replaced twice.** A rule that replaces a layer, selected by its name, is
applied in both passes: its function, here the doubling of the weights, is applied two times. -/
theorem C114_replace_violated :
    (run [⟨.name ['c'], .replace ⟨3, 3⟩ fun b _ => 2 * b⟩] computeAll (fun _ => .single) exSingle).map
      (fun g => g.map (·.body)) = some [4 * 5, 0] ∧
    (edit [⟨.name ['c'], .replace ⟨3, 3⟩ fun b _ => 2 * b⟩] exSingle).map
      (fun g => g.map (·.body)) = some [2 * 5, 0] := by
  constructor <;> decide +kernel

/-- **C114 violated: stale quantization parameters.** A rule that changes the method (or the bits) of the
final configuration leaves the quantization parameters that were computed for the old method (and bits):
here the parameters are those of 8 bits and a power-of-two threshold. -/
theorem C114_stale_violated : ∃ rules : List (Rule Nat),
    (run rules computeAll (fun _ => .single) exSingle).map
      (fun g => g.map fun n => n.finalAct.map fun o => (o.get .actMethod, o.get .actBits, o.get .actParams)) =
      some [some (some (.meth .uniform), some (.nat 4), some (.user 8)),
            some (some (.meth .uniform), some (.nat 4), some (.user 8))] ∧
    (compute ⟨(exAct 4).set .actMethod (.meth .uniform), ⟨[], [], []⟩⟩).act.get .actParams = some (.user 104) :=
  ⟨[⟨.any, .finalAMethod (some .uniform)⟩, ⟨.any, .finalA [(.actBits, .nat 4)]⟩], by decide +kernel,
    by decide +kernel⟩

end MCT.Editor
