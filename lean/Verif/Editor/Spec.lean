/-
What a user asks of the network editor: the layers that a filter selects, the settings that an action
requests, the requests that cannot be met, and the last setting that a list of rules requests.
-/
import Verif.Editor.Model

namespace MCT.Editor
open MCT.Py MCT.Tpc MCT.Cand

variable {B : Type}

/-- The layers that a filter selects. -/
def Filter.Holds : Filter → Node B → Prop
  | .type t, n => t = n.type ∨ (n.functional = true ∧ t.name = n.type.name)
  | .name s, n => n.name = s
  | .scope s, n => s <:+: n.name
  | .and a b, n => a.Holds n ∧ b.Holds n
  | .or a b, n => a.Holds n ∨ b.Holds n
  | .not a, n => ¬ a.Holds n
  | .any, _ => True

/-- What a request changes: a configuration of the activation, or of the weights (of one weight attribute,
or of all weights together), of all candidates or of the final configuration. -/
inductive Target
  | candA | finalA | candW (a : Option Attr) | finalW (a : Option Attr)
  deriving DecidableEq, Repr

/-- The three settings of a quantization method of activations. -/
def methodA (m : Method) : List (Param × Val) :=
  [(.actParamsFn, .fn (.actParams m)), (.actFn, .fn (.actQuantizer m)), (.actMethod, .meth m)]

/-- The three settings of a quantization method of weights; both LUT methods have the k-means quantizer. -/
def methodW (m : Method) : List (Param × Val) :=
  [(.wParamsFn, .fn (.wParams m)),
   (.wFn, .fn (if m = .lutPot ∨ m = .lutSym then .kmeans else .wQuantizer m)), (.wMethod, .meth m)]

/-- The settings that an action requests, in their order. -/
def Action.requests : Action B → List (Target × Param × Val)
  | .candW a kw => kw.map fun q => (.candW a, q)
  | .finalW a kw => kw.map fun q => (.finalW a, q)
  | .candA kw => kw.map fun q => (.candA, q)
  | .finalA kw => kw.map fun q => (.finalA, q)
  | .paramsFn a act wts =>
    (match act with | none => [] | some f => [(.candA, .actParamsFn, .fn f)]) ++
    (match wts with | none => [] | some f => [(.candW a, .wParamsFn, .fn f)])
  | .finalAMethod (some m) => (methodA m).map fun q => (.finalA, q)
  | .candAMethod (some m) => (methodA m).map fun q => (.candA, q)
  | .finalWMethod a (some m) => (methodW m).map fun q => (.finalW a, q)
  | .candWMethod a (some m) => (methodW m).map fun q => (.candW a, q)
  | _ => []

open Classical in
/-- All settings that the rules request for a layer, in their order. -/
noncomputable def requestsFor (rules : List (Rule B)) (n : Node B) : List (Target × Param × Val) :=
  (rules.filter fun r => decide (r.filter.Holds n)).flatMap fun r => r.action.requests

/-- The last value requested for the parameter `p` of one of the targets `hit`. -/
def lastValue (hit : Target → Bool) (p : Param) (reqs : List (Target × Param × Val)) : Option Val :=
  ((reqs.filter fun q => hit q.1 && decide (q.2.1 = p)).getLast?).map (·.2.2)

/-- The value of a parameter after the request for `v`: parameters that the configuration does not have
are not added. -/
def after (c : Cls) (o : Obj) (p : Param) (v : Option Val) : Option Val :=
  match v with
  | some v => if hasAttr c o p then some v else o.get p
  | none => o.get p

/-- Candidates are also changed by the requests for the final configuration if it is the same object. -/
def hitsAct (n : Node B) (i : Nat) : Target → Bool
  | .candA => true
  | .finalA => decide (n.finalA = .cand i)
  | _ => false

/-- The targets that change the parameters of all weights of the candidate `i`. -/
def hitsWts (n : Node B) (i : Nat) : Target → Bool
  | .candW none => true
  | .finalW none => decide (n.finalW = .cand i)
  | _ => false

/-- The targets that change the weight attribute `k` of the candidate `i`, with the configuration `w`. -/
def hitsAttr (n : Node B) (i : Nat) (w : WObj) (k : Attr) : Target → Bool
  | .candW (some a) => decide (w.resolve a = some k)
  | .finalW (some a) => decide (n.finalW = .cand i) && decide (w.resolve a = some k)
  | _ => false

/-- The targets that change a final configuration with an object of its own. -/
def hitsFinalAct : Target → Bool
  | .finalA => true
  | _ => false

def hitsFinalWts : Target → Bool
  | .finalW none => true
  | _ => false

def hitsFinalAttr (w : WObj) (k : Attr) : Target → Bool
  | .finalW (some a) => decide (w.resolve a = some k)
  | _ => false

/-- Settings of one or of all weight attributes that cannot be made: the attribute is not given by the
name, or the dictionary of the attributes itself would be replaced. -/
def BadW (w : WObj) (a : Option Attr) (kw : List (Param × Val)) : Prop :=
  match a with
  | none => ∃ q ∈ kw, q.1 = .mappings
  | some a => kw ≠ [] ∧ w.resolve a = none

/-- Settings of an activation that cannot be made: computed properties. -/
def BadA (kw : List (Param × Val)) : Prop := ∃ q ∈ kw, q.1 = .enableAct ∨ q.1 = .preserving

/-- No weight attribute is given by the name. -/
def NoAttr (w : WObj) (a : Option Attr) : Prop := ∀ b, a = some b → w.resolve b = none

/-- The actions that a layer rejects. -/
def Rejects (n : Node B) : Action B → Prop
  | .candW a kw => ∃ c ∈ n.cands, BadW c.wts a kw
  | .finalW a kw => ∃ w, n.finalWts = some w ∧ BadW w a kw
  | .candA kw => n.cands ≠ [] ∧ BadA kw
  | .finalA kw => n.finalAct ≠ none ∧ BadA kw
  | .paramsFn a _ wts => wts ≠ none ∧ ∃ c ∈ n.cands, NoAttr c.wts a
  | .finalAMethod m => n.finalAct ≠ none ∧ m = some .lutSym
  | .candAMethod m => n.cands ≠ [] ∧ m = some .lutSym
  | .finalWMethod a m => m ≠ none ∧ ∃ w, n.finalWts = some w ∧ NoAttr w a
  | .candWMethod a m => m ≠ none ∧ ∃ c ∈ n.cands, NoAttr c.wts a
  | .replace _ _ => False

/-- The action is not the replacement of a layer. -/
def Action.Setting : Action B → Prop
  | .replace _ _ => False
  | _ => True

/-- An activation configuration as it is built: it has the three parameters of its method. -/
def WellA (o : Obj) : Prop := o.has .actFn = true ∧ o.has .actParamsFn = true ∧ o.has .actMethod = true

/-- A weights configuration as it is built: every attribute has the three parameters of its method. -/
def WellW (w : WObj) : Prop := ∀ k o, w.attr k = some o →
  o.has .wFn = true ∧ o.has .wParamsFn = true ∧ o.has .wMethod = true

/-- A node whose configurations are as they are built, and whose final configurations, if they are those of
a candidate, are those of an existing one. -/
structure Well (n : Node B) : Prop where
  acts : ∀ c ∈ n.cands, WellA c.act
  wts : ∀ c ∈ n.cands, WellW c.wts
  finalA : ∀ o, n.finalA = .own o → WellA o
  finalW : ∀ w, n.finalW = .own w → WellW w
  inA : ∀ i, n.finalA = .cand i → i < n.cands.length
  inW : ∀ i, n.finalW = .cand i → i < n.cands.length

end MCT.Editor
