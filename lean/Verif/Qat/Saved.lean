/-
C145: the quantizers of a saved model that is prepared for quantization aware training.

Sources (under /repo/model_compression_toolkit):
  trainable_infrastructure/keras/config_serialization.py 31-89, trainable_infrastructure/keras/base_keras_quantizer.py
  36-62, trainable_infrastructure/common/trainable_quantizer_config.py, trainable_infrastructure/common/
  get_quantizer_config.py 83-130, qat/keras/quantizer/quantization_builder.py 73-107.

Numbers and arrays are arbitrary types.  Keras writes the dictionary of a quantizer as JSON: a numpy number as a number,
a numpy array as a list or, since TensorFlow 2.13, as a dictionary with the list; an object of another class is an error.
-/
import Mathlib.Data.List.Basic
import Mathlib.Data.List.Forall2
import Mathlib.Data.Int.Notation

namespace MCT.Qat.Saved

/-- A method of quantization, by the value of the enum. -/
structure Method where
  value : ℕ
  deriving DecidableEq

/-- A parameter: a Python number, a numpy number, a numpy array, or what loading may leave instead: a list or a
dictionary.  `K` are the numbers, `A` the arrays. -/
inductive P (K A : Type)
  | num (x : K)
  | npnum (x : K)
  | arr (a : A)
  | list (a : A)
  | box (a : A)

/-- `TrainableQuantizerCandidateConfig`, trainable_quantizer_config.py 21-37. -/
structure Candidate (K A : Type) where
  nBits : ℕ
  params : List (String × P K A)

/-- `TrainableQuantizerWeightsConfig`, trainable_quantizer_config.py 68-98. -/
structure WCfg (K A : Type) where
  method : Method
  nBits : ℕ
  params : List (String × P K A)
  enable : Bool
  axis : ℤ
  perChannel : Bool
  minThreshold : K
  candidates : Option (List (Candidate K A))

/-- `TrainableQuantizerActivationConfig`, trainable_quantizer_config.py 40-65. -/
structure ACfg (K A : Type) where
  method : Method
  nBits : ℕ
  params : List (String × P K A)
  enable : Bool
  minThreshold : K
  candidates : Option (List (Candidate K A))

/-- A value in the dictionary of a quantizer. -/
inductive V (K A : Type)
  | nat (n : ℕ)
  | int (z : ℤ)
  | num (x : K)
  | bool (b : Bool)
  | params (l : List (String × P K A))
  | cands (l : Option (List (Candidate K A)))

abbrev D (K A : Type) := List (String × V K A)

variable {K A : Type}

/-- `config_serialization`, config_serialization.py 54-57, for weights: all attributes, enums by their value. -/
def WCfg.dict (c : WCfg K A) : D K A :=
  [("weights_quantization_method", .nat c.method.value), ("weights_n_bits", .nat c.nBits),
   ("weights_quantization_params", .params c.params), ("enable_weights_quantization", .bool c.enable),
   ("weights_channels_axis", .int c.axis), ("weights_per_channel_threshold", .bool c.perChannel),
   ("min_threshold", .num c.minThreshold), ("weights_bits_candidates", .cands c.candidates),
   ("is_weights", .bool true), ("is_activations", .bool false)]

/-- `config_serialization`, config_serialization.py 54-57, for activations. -/
def ACfg.dict (c : ACfg K A) : D K A :=
  [("activation_quantization_method", .nat c.method.value), ("activation_n_bits", .nat c.nBits),
   ("activation_quantization_params", .params c.params), ("enable_activation_quantization", .bool c.enable),
   ("min_threshold", .num c.minThreshold), ("activation_bits_candidates", .cands c.candidates),
   ("is_weights", .bool false), ("is_activations", .bool true)]

/-- What JSON makes of a parameter (Keras); `boxed` since TensorFlow 2.13. -/
def P.json (boxed : Bool) : P K A → P K A
  | .npnum x => .num x
  | .arr a => if boxed then .box a else .list a
  | p => p

/-- What JSON makes of a value (Keras); an object of an unknown class is an error. -/
def V.json (boxed : Bool) : V K A → Option (V K A)
  | .params l => some (.params (l.map fun p => (p.1, p.2.json boxed)))
  | .cands (some (_ :: _)) => none
  | v => some v

/-- Writing a dictionary to a file and reading it. -/
def D.json (boxed : Bool) (d : D K A) : Option (D K A) := d.mapM fun p => (p.2.json boxed).map fun v => (p.1, v)

/-- `np.array(value[CONFIG][VALUE] if isinstance(value, dict) else value)`, config_serialization.py 72-74; `zero x` is
the array without dimensions. -/
def P.array (zero : K → A) : P K A → P K A
  | .num x => .arr (zero x)
  | .npnum x => .arr (zero x)
  | .arr a => .arr a
  | .list a => .arr a
  | .box a => .arr a

/-- `in_config[k]`, config_serialization.py 70-87, of the type the constructor wants. -/
def D.nat (d : D K A) (k : String) : Option ℕ := (d.lookup k).bind fun | .nat n => some n | _ => none
/-- As above, an integer. -/
def D.int (d : D K A) (k : String) : Option ℤ := (d.lookup k).bind fun | .int n => some n | _ => none
/-- As above, a number. -/
def D.num (d : D K A) (k : String) : Option K := (d.lookup k).bind fun | .num n => some n | _ => none
/-- As above, a flag. -/
def D.bool (d : D K A) (k : String) : Option Bool := (d.lookup k).bind fun | .bool n => some n | _ => none
/-- As above, the parameters. -/
def D.params (d : D K A) (k : String) : Option (List (String × P K A)) :=
  (d.lookup k).bind fun | .params n => some n | _ => none

/-- `config_deserialization`, config_serialization.py 69-81, for weights; `known` are the values of the enum. -/
def loadW (zero : K → A) (known : ℕ → Bool) (d : D K A) : Option (WCfg K A) :=
  (d.bool "is_weights").bind fun w => if w = false then none else
  (d.params "weights_quantization_params").bind fun ps =>
  (d.nat "weights_quantization_method").bind fun m => if known m = false then none else
  (d.nat "weights_n_bits").bind fun n => (d.bool "enable_weights_quantization").bind fun e =>
  (d.int "weights_channels_axis").bind fun ax => (d.bool "weights_per_channel_threshold").bind fun pc =>
  (d.num "min_threshold").map fun t => ⟨⟨m⟩, n, ps.map (fun p => (p.1, p.2.array zero)), e, ax, pc, t, none⟩

/-- `config_deserialization`, config_serialization.py 82-87, for activations: the parameters are taken as they are. -/
def loadA (known : ℕ → Bool) (d : D K A) : Option (ACfg K A) :=
  (d.bool "is_weights").bind fun w => if w = true then none else
  (d.bool "is_activations").bind fun a => if a = false then none else
  (d.nat "activation_quantization_method").bind fun m => if known m = false then none else
  (d.nat "activation_n_bits").bind fun n => (d.params "activation_quantization_params").bind fun ps =>
  (d.bool "enable_activation_quantization").bind fun e =>
  (d.num "min_threshold").map fun t => ⟨⟨m⟩, n, ps, e, t, none⟩

/-- `get_config`, a file, and `from_config` (base_keras_quantizer.py 36-62). -/
def reloadW (zero : K → A) (known : ℕ → Bool) (boxed : Bool) (c : WCfg K A) : Option (WCfg K A) :=
  (c.dict.json boxed).bind (loadW zero known)

/-- The same for activations (base_keras_quantizer.py 36-62). -/
def reloadA (known : ℕ → Bool) (boxed : Bool) (c : ACfg K A) : Option (ACfg K A) :=
  (c.dict.json boxed).bind (loadA known)

/-! ### Specification -/

/-- The numbers a parameter stands for; a dictionary is none. -/
def P.numbers (zero : K → A) : P K A → Option A
  | .num x => some (zero x)
  | .npnum x => some (zero x)
  | .arr a => some a
  | .list a => some a
  | .box _ => none

/-- The two lists of parameters have the same names in the same order and stand for the same numbers. -/
def SameParams (zero : K → A) (l l' : List (String × P K A)) : Prop :=
  List.Forall₂ (fun p q => p.1 = q.1 ∧ p.2.numbers zero = q.2.numbers zero) l l'

/-- The parameter is a number or an array, as a quantizer has it before it is saved. -/
def P.Fresh : P K A → Prop
  | .num _ | .npnum _ | .arr _ => True
  | _ => False

/-! ### Theorems -/

theorem dictW_json (boxed : Bool) (c : WCfg K A) :
    c.dict.json boxed = (V.json boxed (.cands c.candidates)).map fun _ =>
      ({ c with params := c.params.map fun p => (p.1, p.2.json boxed) } : WCfg K A).dict := by
  cases h : c.candidates with
  | none => simp [WCfg.dict, D.json, V.json, h]
  | some l => cases l <;> simp [WCfg.dict, D.json, V.json, h]

theorem dictA_json (boxed : Bool) (c : ACfg K A) :
    c.dict.json boxed = (V.json boxed (.cands c.candidates)).map fun _ =>
      ({ c with params := c.params.map fun p => (p.1, p.2.json boxed) } : ACfg K A).dict := by
  cases h : c.candidates with
  | none => simp [ACfg.dict, D.json, V.json, h]
  | some l => cases l <;> simp [ACfg.dict, D.json, V.json, h]

theorem loadW_dict (zero : K → A) (known : ℕ → Bool) (c : WCfg K A) (hk : known c.method.value = true) :
    loadW zero known c.dict =
      some { c with params := c.params.map (fun p => (p.1, p.2.array zero)), candidates := none } := by
  simp [loadW, WCfg.dict, D.bool, D.params, D.nat, D.int, D.num, List.lookup, hk]

theorem loadA_dict (known : ℕ → Bool) (c : ACfg K A) (hk : known c.method.value = true) :
    loadA known c.dict = some { c with candidates := none } := by
  simp [loadA, ACfg.dict, D.bool, D.params, D.nat, D.num, List.lookup, hk]

/-- **C145 (weights).**  A quantizer of weights without candidates is loaded with the same method, bits, axis, flags and
minimal threshold, and with parameters of the same names and numbers, in every version of TensorFlow. -/
theorem C145_weights (zero : K → A) (known : ℕ → Bool) (boxed : Bool) (c : WCfg K A)
    (hk : known c.method.value = true) (hf : ∀ p ∈ c.params, p.2.Fresh) (hc : c.candidates = none) :
    ∃ ps, reloadW zero known boxed c = some { c with params := ps } ∧ SameParams zero c.params ps := by
  refine ⟨c.params.map fun p => (p.1, (p.2.json boxed).array zero), ?_, ?_⟩
  · unfold reloadW
    rw [dictW_json, hc]
    simp only [V.json, Option.map_some, Option.bind_some]
    rw [loadW_dict]
    · simp [Function.comp_def]
    · exact hk
  · unfold SameParams
    rw [List.forall₂_map_right_iff]
    refine List.forall₂_same.mpr fun p hp => ⟨rfl, ?_⟩
    have := hf p hp
    rcases h : p.2 with x | x | a | a | a
    · rfl
    · rfl
    · cases boxed <;> rfl
    · rw [h] at this; exact this.elim
    · rw [h] at this; exact this.elim

/-- **C145 (activations).**  The same for activations with numbers as parameters. -/
theorem C145_activation (zero : K → A) (known : ℕ → Bool) (boxed : Bool) (c : ACfg K A)
    (hk : known c.method.value = true) (hf : ∀ p ∈ c.params, ∃ x, p.2 = .num x ∨ p.2 = .npnum x)
    (hc : c.candidates = none) :
    ∃ ps, reloadA known boxed c = some { c with params := ps } ∧ SameParams zero c.params ps := by
  refine ⟨c.params.map fun p => (p.1, p.2.json boxed), ?_, ?_⟩
  · unfold reloadA
    rw [dictA_json, hc]
    simp only [V.json, Option.map_some, Option.bind_some]
    rw [loadA_dict]
    exact hk
  · unfold SameParams
    rw [List.forall₂_map_right_iff]
    refine List.forall₂_same.mpr fun p hp => ⟨rfl, ?_⟩
    obtain ⟨x, h | h⟩ := hf p hp <;> rw [h] <;> rfl

/-- **C145 (violation, arrays of activations).**  An array among the parameters of an activation is loaded as a
dictionary since TensorFlow 2.13. -/
theorem C145_activation_array_violated (known : ℕ → Bool) (c : ACfg K A) (hk : known c.method.value = true)
    (hc : c.candidates = none) (pre post : List (String × P K A)) (k : String) (a : A)
    (hp : c.params = pre ++ (k, .arr a) :: post) :
    ∃ c', reloadA known true c = some c' ∧ c'.params[pre.length]? = some (k, .box a) := by
  refine ⟨{ c with params := c.params.map fun p => (p.1, p.2.json true), candidates := none }, ?_, ?_⟩
  · unfold reloadA
    rw [dictA_json, hc]
    simp only [V.json, Option.map_some, Option.bind_some]
    rw [loadA_dict]
    exact hk
  · simp [hp, P.json]

/-! ### Mixed precision -/

/-- `get_unique_activation_candidates` and `get_unique_weights_candidates`, base_node.py 580-619. -/
def unique {C : Type} [DecidableEq C] : List C → List C → List C
  | [], _ => []
  | c :: cs, seen => if c ∈ seen then unique cs seen else c :: unique cs (seen ++ [c])

/-- The candidates given to a quantizer (quantization_builder.py 73-76, get_quantizer_config.py 115-130). -/
def given {C : Type} [DecidableEq C] (show' : C → Candidate K A) (cs : List C) : Option (List (Candidate K A)) :=
  if 1 < cs.length then some ((unique cs []).map show') else none

/-- **C145 (violation, mixed precision).**  A layer with more than one candidate is prepared with a quantizer that
cannot be saved; with one candidate it can. -/
theorem C145_candidates_violated {C : Type} [DecidableEq C] (show' : C → Candidate K A) (cs : List C) (boxed : Bool) :
    (1 < cs.length → ∀ c : WCfg K A, c.candidates = given show' cs → c.dict.json boxed = none) ∧
    (1 < cs.length → ∀ c : ACfg K A, c.candidates = given show' cs → c.dict.json boxed = none) ∧
    (cs.length ≤ 1 → given show' cs = none) := by
  have key : 1 < cs.length → ∃ x l, given show' cs = some (x :: l) := by
    intro h
    cases cs with
    | nil => simp at h
    | cons c cs =>
      refine ⟨show' c, (unique cs [c]).map show', ?_⟩
      unfold given
      rw [if_pos h, unique]
      simp
  refine ⟨fun h c hc => ?_, fun h c hc => ?_, fun h => if_neg (by omega)⟩
  · obtain ⟨x, l, e⟩ := key h
    rw [dictW_json, hc, e]
    rfl
  · obtain ⟨x, l, e⟩ := key h
    rw [dictA_json, hc, e]
    rfl

/-- **C145 (kind).**  What was saved of a quantizer of weights says so and nothing else, and never loads as one of
activations; and the other way round. -/
theorem C145_kind (zero : K → A) (known : ℕ → Bool) (boxed : Bool) (w : WCfg K A) (a : ACfg K A) :
    w.dict.bool "is_weights" = some true ∧ w.dict.bool "is_activations" = some false ∧
    a.dict.bool "is_weights" = some false ∧ a.dict.bool "is_activations" = some true ∧
    (w.dict.json boxed).bind (loadA known) = none ∧ (a.dict.json boxed).bind (loadW zero known) = none := by
  refine ⟨rfl, rfl, rfl, rfl, ?_, ?_⟩
  · rw [dictW_json]
    rcases w.candidates with _ | _ | ⟨_, _⟩ <;> rfl
  · rw [dictA_json]
    rcases a.candidates with _ | _ | ⟨_, _⟩ <;> rfl

/-- A symmetric quantizer of three channels, numbers and arrays being natural numbers and lists of them. -/
example : reloadW (fun x => [x]) (fun m => decide (m < 5)) true
    (⟨⟨1⟩, 8, [("threshold", .arr [1, 2, 4]), ("scale", .npnum 3)], true, 3, true, 0, none⟩ : WCfg ℕ (List ℕ)) =
    some ⟨⟨1⟩, 8, [("threshold", .arr [1, 2, 4]), ("scale", .arr [3])], true, 3, true, 0, none⟩ := rfl

example : given (K := ℕ) (A := ℕ) (fun b => ⟨b, []⟩) [8, 8, 4] = some [⟨8, []⟩, ⟨4, []⟩] := rfl

end MCT.Qat.Saved
