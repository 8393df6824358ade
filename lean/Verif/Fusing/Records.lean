/-
C38: the records of the fused operations agree after every history of calls.
-/
import Verif.Fusing.Generate

namespace MCT.Fusing
open MCT.Graph MCT.GraphSpec MCT.FusingSpec

set_option linter.unusedSectionVars false
set_option linter.unusedVariables false
set_option linter.unusedSimpArgs false

variable {N P C : Type} [DecidableEq N] [DecidableEq C]

/-- The first pattern the search returns is the one of the specification. -/
theorem find_cfg {S : Setup N P} {ps : List (Pattern P C)} {w : List N} {c : Option C} :
    (∃ p, ps.find? (fun p => isValidFusion S [p.layers] w []) = some p ∧ p.cfg = c) ↔
      2 ≤ w.length ∧ FirstCfg S ps w c := by
  have hv : ∀ p : Pattern P C, isValidFusion S [p.layers] w [] = true ↔
      2 ≤ w.length ∧ Fits S p.layers w := by
    intro p
    simp [isValid_iff]
  constructor
  · rintro ⟨p, hp, rfl⟩
    obtain ⟨h1, as, bs, h2, h3⟩ := List.find?_eq_some_iff_append.1 hp
    obtain ⟨h4, h5⟩ := (hv p).1 h1
    refine ⟨h4, as, p, bs, h2, rfl, h5, fun q hq hf => ?_⟩
    have h6 := h3 q hq
    rw [(hv q).2 ⟨h4, hf⟩] at h6
    simp at h6
  · rintro ⟨h1, as, p, bs, h2, h3, h4, h5⟩
    refine ⟨p, List.find?_eq_some_iff_append.2 ⟨(hv p).2 ⟨h1, h4⟩, as, bs, h2, fun q hq => ?_⟩, h3⟩
    cases hb : isValidFusion S [q.layers] w [] with
    | false => rfl
    | true => exact absurd ((hv q).1 hb).2 (h5 q hq)

theorem setCfg_get (S : Setup N P) (info : Info N P C) (id : Name) (w : List N) (k : Name) (c : Option C) :
    (setCfg S info id w).cfgs.get k = some c ↔
      (k = id ∧ 2 ≤ w.length ∧ FirstCfg S info.patterns w c) ∨
      ((k ≠ id ∨ info.patterns.find? (fun p => isValidFusion S [p.layers] w []) = none) ∧
        info.cfgs.get k = some c) := by
  rw [← find_cfg, setCfg]
  cases h : info.patterns.find? (fun p => isValidFusion S [p.layers] w []) with
  | none => simp
  | some p =>
    simp only [Dict.get_set]
    by_cases hk : k = id
    · simp [hk]
    · simp [hk]

/-- The record of one more operation. -/
def addStep (S : Setup N P) (info : Info N P C) (id : Name) (w : List N) : Info N P C :=
  setCfg S { info with
    data := info.data ++ [(id, w)]
    map := mapNodes S info.map id w } id w

theorem consistent_add {S : Setup N P} {info : Info N P C} (h : Consistent S info) {id : Name}
    {nodes : List N} (hid : id ∉ info.data.map Prod.fst)
    (hfresh : ∀ n ∈ nodes, ∀ id' w, (id', w) ∈ info.data → ∀ m ∈ w, S.name m ≠ S.name n) :
    Consistent S (addStep S info id nodes) := by
  obtain ⟨e1, e2, e3, e4⟩ := setCfg_data S ({ info with
    data := info.data ++ [(id, nodes)]
    map := mapNodes S info.map id nodes } : Info N P C) id nodes
  rw [addStep]
  constructor
  · rw [e1, List.map_append, List.nodup_append]
    refine ⟨h.keys, by simp, ?_⟩
    intro a ha b hb
    obtain rfl : b = id := by simpa using hb
    rintro rfl
    exact hid ha
  · intro id' w hw n hn
    rw [e1] at hw
    rw [e2, get_mapNodes]
    rcases List.mem_append.1 hw with hw | hw
    · rw [if_neg]
      · exact h.mapped id' w hw n hn
      · intro hx
        obtain ⟨m, hm, hx⟩ := List.mem_map.1 hx
        exact hfresh m hm id' w hw n hn hx.symm
    · obtain ⟨rfl, rfl⟩ : id' = id ∧ w = nodes := by simpa using hw
      rw [if_pos (List.mem_map.2 ⟨n, hn, rfl⟩)]
  · intro nm id' hm
    rw [e2, get_mapNodes] at hm
    rw [e1]
    simp only at hm ⊢
    split at hm
    · rename_i hx
      obtain rfl : id = id' := by simpa using hm
      obtain ⟨n, hn, hx⟩ := List.mem_map.1 hx
      exact ⟨nodes, by simp, n, hn, hx⟩
    · obtain ⟨w, hw, hx⟩ := h.only nm id' hm
      exact ⟨w, List.mem_append_left _ hw, hx⟩
  · intro k c
    rw [setCfg_get, e1, e3]
    simp only [h.cfg]
    constructor
    · rintro (⟨rfl, h1, h2⟩ | ⟨h1, w, hw, h2⟩)
      · exact ⟨nodes, by simp, h1, h2⟩
      · exact ⟨w, List.mem_append_left _ hw, h2⟩
    · rintro ⟨w, hw, h2⟩
      rcases List.mem_append.1 hw with hw1 | hw1
      · right
        refine ⟨Or.inl ?_, w, hw1, h2⟩
        rintro rfl
        exact hid (List.mem_map.2 ⟨(k, w), hw1, rfl⟩)
      · obtain ⟨rfl, rfl⟩ : k = id ∧ w = nodes := by simpa using hw1
        exact Or.inl ⟨rfl, h2⟩

theorem consistent_addOp {S : Setup N P} {info info' : Info N P C} (h : Consistent S info) {id : Name}
    {nodes : List N} (hr : addOp S info id nodes = some info')
    (hfresh : ∀ n ∈ nodes, ∀ id' w, (id', w) ∈ info.data → ∀ m ∈ w, S.name m ≠ S.name n) :
    Consistent S info' ∧ info'.data = info.data ++ [(id, nodes)] ∧ info'.patterns = info.patterns ∧
      info'.manual = info.manual := by
  rw [addOp] at hr
  split at hr
  · simp at hr
  · rename_i hk
    obtain rfl : _ = info' := by simpa using hr
    obtain ⟨e1, e2, e3, e4⟩ := setCfg_data S ({ info with
      data := info.data ++ [(id, nodes)]
      map := mapNodes S info.map id nodes } : Info N P C) id nodes
    refine ⟨consistent_add h (Dict.get_none.1 (by simpa [Dict.has] using hk)) hfresh, e1, e3, e4⟩

/-- Operations that share the name of a layer are the same. -/
theorem consistent_unique {S : Setup N P} {info : Info N P C} (h : Consistent S info) {id id' : Name}
    {w w' : List N} (h1 : (id, w) ∈ info.data) (h2 : (id', w') ∈ info.data) {n m : N} (hn : n ∈ w)
    (hm : m ∈ w') (e : S.name n = S.name m) : id = id' ∧ w = w' := by
  have a := h.mapped id w h1 n hn
  have b := h.mapped id' w' h2 m hm
  rw [e, b] at a
  obtain rfl : id' = id := by simpa using a
  refine ⟨rfl, ?_⟩
  have c := Dict.mem_get h.keys h1
  rw [Dict.mem_get h.keys h2] at c
  simpa using c.symm

theorem consistent_removeOp {S : Setup N P} {info info' : Info N P C} (h : Consistent S info) {id : Name}
    (hr : removeOp S info id = some info') :
    Consistent S info' ∧ info'.data = info.data.filter (fun p => decide (p.1 ≠ id)) ∧
      info'.patterns = info.patterns ∧
      (∃ w, (id, w) ∈ info.data ∧ info'.manual = info.manual.erase (w.map S.name)) := by
  rw [removeOp] at hr
  split at hr
  · simp at hr
  · rename_i nodes hn
    obtain rfl : _ = info' := by simpa using hr
    have hmem := Dict.get_mem hn
    have hdat : ∀ id' w, (id', w) ∈ info.data.pop id ↔ (id', w) ∈ info.data ∧ id' ≠ id := by
      intro id' w; simp [Dict.pop, List.mem_filter]
    refine ⟨⟨?_, ?_, ?_, ?_⟩, rfl, rfl, nodes, hmem, rfl⟩
    · simp only [Dict.pop]
      exact h.keys.sublist (List.filter_sublist.map _)
    · intro id' w hw n hn'
      simp only at hw ⊢
      obtain ⟨hw1, hne⟩ := (hdat id' w).1 hw
      rw [get_popAll, if_neg]
      · exact h.mapped id' w hw1 n hn'
      · intro hx
        obtain ⟨m, hm, hx⟩ := List.mem_map.1 hx
        exact hne (consistent_unique h hw1 hmem hn' hm hx.symm).1
    · intro nm id' hm
      simp only at hm ⊢
      rw [get_popAll] at hm
      split at hm
      · simp at hm
      · rename_i hx
        obtain ⟨w, hw, n, hnw, e⟩ := h.only nm id' hm
        refine ⟨w, (hdat id' w).2 ⟨hw, ?_⟩, n, hnw, e⟩
        rintro rfl
        have c := Dict.mem_get h.keys hw
        rw [hn] at c
        obtain rfl : nodes = w := by simpa using c
        exact hx (List.mem_map.2 ⟨n, hnw, e⟩)
    · intro k c
      simp only [Dict.get_pop, hdat]
      split
      · rename_i hk
        simp [hk]
      · rename_i hk
        rw [h.cfg]
        constructor
        · rintro ⟨w, hw, hx⟩; exact ⟨w, ⟨hw, hk⟩, hx⟩
        · rintro ⟨w, ⟨hw, -⟩, hx⟩; exact ⟨w, hw, hx⟩

theorem consistent_addManual {S : Setup N P} {info info' : Info N P C} (h : Consistent S info)
    {names : List Name} (hr : addManual info names = some info') :
    Consistent S info' ∧ info'.data = info.data ∧ info'.patterns = info.patterns ∧
      info'.manual = info.manual ++ [names] := by
  rw [addManual] at hr
  split at hr
  · simp at hr
  · obtain rfl : _ = info' := by simpa using hr
    exact ⟨⟨h.keys, h.mapped, h.only, h.cfg⟩, rfl, rfl, rfl⟩

/-- **C38** (missing: histories that add an operation with a layer of another one, which the calls do
not refuse, see `C38_overlap_violated`): after every sequence of adding and removing operations the
records agree. -/
theorem C38_history_partial {S : Setup N P} {i j : Info N P C} {cs : List (Call N)}
    (hist : History S i cs j) (h : Consistent S i) : Consistent S j := by
  induction hist with
  | nil => exact h
  | @cons i j k c cs hc hf _ ih =>
    apply ih
    cases c with
    | add id nodes => exact (consistent_addOp h hc (hf id nodes rfl)).1
    | remove id => exact (consistent_removeOp h hc).1
    | manual names => exact (consistent_addManual h hc).1

/-- **C38**: the inner layers are exactly those that another layer of the same operation follows. -/
theorem C38_inner (info : Info N P C) (n : N) :
    n ∈ innerNodes info ↔ ∃ id pre m post, (id, pre ++ n :: m :: post) ∈ info.data := by
  unfold innerNodes
  rw [List.mem_flatMap]
  constructor
  · rintro ⟨⟨id, w⟩, hw, hn⟩
    obtain ⟨pre, post, hp⟩ := List.append_of_mem hn
    cases hw' : w.getLast? with
    | none =>
      rw [List.getLast?_eq_none_iff] at hw'
      subst hw'
      simp at hn
    | some l =>
      have h1 := List.dropLast_append_getLast? l hw'
      simp only at hp
      rw [hp] at h1
      cases post with
      | nil => exact ⟨id, pre, l, [], by rw [← h1] at hw; simpa using hw⟩
      | cons m post => exact ⟨id, pre, m, post ++ [l], by rw [← h1] at hw; simpa using hw⟩
  · rintro ⟨id, pre, m, post, h⟩
    refine ⟨_, h, ?_⟩
    simp only
    rw [List.dropLast_append_of_ne_nil (by simp), List.dropLast_cons_of_ne_nil (by simp)]
    simp

/-- **C38**: in records that agree, a layer is in at most one operation, and asking for the operation of
a layer by its name gives that operation. -/
theorem C38_lookup {S : Setup N P} {info : Info N P C} (h : Consistent S info)
    (hinj : ∀ id w n, (id, w) ∈ info.data → n ∈ w → ∀ m, S.name m = S.name n → m = n) :
    (∀ id w id' w', (id, w) ∈ info.data → (id', w') ∈ info.data → ∀ n ∈ w, n ∈ w' → id = id' ∧ w = w') ∧
    ∀ n id, (info.map.get (S.name n) = some id ↔ ∃ w, info.data.get id = some w ∧ n ∈ w) ∧
      (isFused info n = true ↔ ∃ id, info.map.get (S.name n) = some id) := by
  have hiff : ∀ n id, (info.map.get (S.name n) = some id ↔ ∃ w, info.data.get id = some w ∧ n ∈ w) := by
    intro n id
    constructor
    · intro hm
      obtain ⟨w, hw, m, hm, e⟩ := h.only _ _ hm
      obtain rfl := hinj id w m hw hm n e.symm
      exact ⟨w, Dict.mem_get h.keys hw, hm⟩
    · rintro ⟨w, hw, hn⟩
      exact h.mapped id w (Dict.get_mem hw) n hn
  refine ⟨fun id w id' w' h1 h2 n hn hn' => consistent_unique h h1 h2 hn hn' rfl, fun n id =>
    ⟨hiff n id, ?_⟩⟩
  simp only [isFused, List.any_eq_true, decide_eq_true_eq]
  constructor
  · rintro ⟨⟨k, w⟩, hp, hn⟩
    exact ⟨k, h.mapped k w hp n hn⟩
  · rintro ⟨k, hk⟩
    obtain ⟨w, hw, hn⟩ := (hiff n k).1 hk
    exact ⟨(k, w), Dict.get_mem hw, hn⟩

/-! ### The records a new object starts with -/

theorem fold_addStep (S : Setup N P) : ∀ (l : Dict (List N)) (i j : Info N P C),
    i.patterns = j.patterns → i.manual = j.manual → i.cfgs = j.cfgs →
    j.data = i.data ++ l → j.map = l.foldl (fun m p => mapNodes S m p.1 p.2) i.map →
    l.foldl (fun i p => addStep S i p.1 p.2) i = l.foldl (fun i p => setCfg S i p.1 p.2) j
  | [], i, j, h1, h2, h3, h4, h5 => by
      cases i; cases j
      simp only [List.append_nil, List.foldl_nil] at *
      subst h1 h2 h3 h4 h5
      rfl
  | p :: l, i, j, h1, h2, h3, h4, h5 => by
      rw [List.foldl_cons, List.foldl_cons]
      obtain ⟨a1, a2, a3, a4⟩ := setCfg_data S ({ i with
        data := i.data ++ [(p.1, p.2)]
        map := mapNodes S i.map p.1 p.2 } : Info N P C) p.1 p.2
      obtain ⟨b1, b2, b3, b4⟩ := setCfg_data S j p.1 p.2
      apply fold_addStep S l
      · rw [addStep, a3, b3]; exact h1
      · rw [addStep, a4, b4]; exact h2
      · rw [addStep, setCfg, setCfg, ← h1]
        simp only
        split
        · simp only [h3]
        · simp only [h3]
      · rw [addStep, a1, b1, h4]; simp
      · rw [addStep, a2, b2, h5]; rfl

/-- **C38**: the records of a new object agree, for operations with different identifiers and no common
names. -/
theorem C38_start {S : Setup N P} {ps : List (Pattern P C)} {manual : List (List Name)}
    {data : Dict (List N)} {info : Info N P C} (h : mkInfo S ps manual data = some info)
    (hk : (data.map Prod.fst).Nodup)
    (hn : data.Pairwise (fun a b => ∀ n ∈ a.2, ∀ m ∈ b.2, S.name n ≠ S.name m)) :
    Consistent S info := by
  rw [mkInfo] at h
  split at h
  · obtain rfl : _ = info := by simpa using h
    rw [← fold_addStep S data ⟨ps, manual, [], [], []⟩ ⟨ps, manual, data,
      data.foldl (fun m p => mapNodes S m p.1 p.2) [], []⟩ rfl rfl rfl (by simp) rfl]
    have key : ∀ (l : Dict (List N)) (i : Info N P C), Consistent S i →
        (i.data ++ l).Pairwise (fun a b => ∀ n ∈ a.2, ∀ m ∈ b.2, S.name n ≠ S.name m) →
        ((i.data ++ l).map Prod.fst).Nodup →
        Consistent S (l.foldl (fun i p => addStep S i p.1 p.2) i) := by
      intro l
      induction l with
      | nil => intro i hi _ _; exact hi
      | cons p l ih =>
        intro i hi h1 h2
        rw [List.foldl_cons]
        obtain ⟨a1, -⟩ := setCfg_data S ({ i with
          data := i.data ++ [(p.1, p.2)]
          map := mapNodes S i.map p.1 p.2 } : Info N P C) p.1 p.2
        apply ih
        · apply consistent_add hi
          · rw [List.map_append, List.nodup_append] at h2
            intro hx
            exact h2.2.2 p.1 hx p.1 (by simp) rfl
          · intro n hn id' w hw m hm
            exact (List.pairwise_append.1 h1).2.2 (id', w) hw p (by simp) m hm n hn
        · rw [addStep, a1]; simpa using h1
        · rw [addStep, a1]; simpa using h2
    apply key data
    · exact ⟨by simp, by simp, by simp [Dict.get_nil], by simp [Dict.get_nil]⟩
    · simpa using hn
    · simpa using hk
  · simp at h

/-- **C38**: the records of generated operations agree, whatever the graph and the patterns, when layers
have different names and joins are not inside a pattern (`C39_disjoint_partial`). -/
theorem C38_generated_partial {S : Setup N P} {g : Gr N} {order : List N} {ps : List (Pattern P C)}
    {info : Info N P C} (ht : TopoOrder g order) (hd : ∀ e ∈ g.edges, e.dst ∈ g.nodes)
    (hinj : ∀ n ∈ g.nodes, ∀ m ∈ g.nodes, S.name n = S.name m → n = m)
    (hone : ∀ p ∈ ps, ∀ l ∈ p.layers.tail, ∀ m, S.fits l m = true → (edgesInto g m).length ≤ 1)
    (h : generate S g order ps [] = some info) : Consistent S info ∧ Accepted S g info := by
  obtain ⟨h1, h2⟩ := C39_chains_partial ht hd h
  have h3 := C39_disjoint_partial ht hone h
  have hpat : info.patterns = ps ∧ ∃ d, mkInfo S ps [] d = some info := by
    rw [generate] at h
    split at h
    · exact ⟨(mkInfo_data h).2.1, _, h⟩
    · obtain ⟨st, _, h⟩ := Option.bind_eq_some_iff.1 h
      obtain ⟨d, _, h⟩ := Option.bind_eq_some_iff.1 h
      exact ⟨(mkInfo_data h).2.1, d, h⟩
  obtain ⟨hp, d, hm⟩ := hpat
  obtain rfl := (mkInfo_data hm).1
  constructor
  · refine C38_start hm h1 (List.Pairwise.imp_of_mem ?_ h3)
    intro a b ha hb hab n hn m hm e
    obtain rfl := hinj n ((h2 a.1 a.2 ha).2.1 n hn) m ((h2 b.1 b.2 hb).2.1 m hm) e
    exact hab n hn hm
  · refine ⟨h3, fun id w hw => ?_⟩
    obtain ⟨a, b, c, e⟩ := h2 id w hw
    exact ⟨b, c, Or.inr ⟨a, hp ▸ e⟩⟩

/-- **C38** (missing: operations that match no pattern, see `C38_missing_config_violated`): asking
whether a fused layer is quantized inside its operation does not raise, and the answer is that of the
configuration of the first pattern the operation matches. -/
theorem C38_quantized_partial {S : Setup N P} {info : Info N P C} (h : Consistent S info)
    (enabled : C → Bool) {id : Name} {w : List N} (hw : (id, w) ∈ info.data) (h2 : 2 ≤ w.length)
    {c : Option C} (hc : FirstCfg S info.patterns w c) {n : N} (hn : n ∈ w) :
    isQuantizedInFln S enabled info n = some (c.elim false enabled) := by
  have hf : isFused info n = true := by
    simp only [isFused, List.any_eq_true, decide_eq_true_eq]
    exact ⟨(id, w), hw, hn⟩
  have h3 : info.cfgs.get id = some c := (h.cfg id c).2 ⟨w, hw, h2, hc⟩
  rw [isQuantizedInFln, if_pos hf, h.mapped id w hw n hn]
  simp only [Option.bind_eq_bind, Option.bind_some, h3]
  cases c <;> rfl

/-- **C38**: a layer that is in no fused operation is not quantized inside one. -/
theorem C38_unfused (S : Setup N P) (enabled : C → Bool) (info : Info N P C) (n : N) (h : ∀ p ∈ info.data, n ∉ p.2) :
    isQuantizedInFln S enabled info n = some false := by
  have hf : ¬ isFused info n = true := by
    simp only [isFused, List.any_eq_true, decide_eq_true_eq, not_exists, not_and]
    exact h
  rw [isQuantizedInFln, if_neg hf]

/-! ### The records do not stay consistent in general -/

/-- The records of one operation on layers 0 and 1 and then one on 1 and 2. -/
def overlapInfo : Option (Info Nat Nat Unit) := do
  let i ← mkInfo lineSetup [⟨[0, 1], none⟩] [] []
  let i ← addOp lineSetup i (fusedId lineSetup [0, 1]) [0, 1]
  addOp lineSetup i (fusedId lineSetup [1, 2]) [1, 2]

/-- **C38** fails of the code: an operation that shares a layer with another one is accepted; layer 1 is
then in two operations. After removing the second one, layer 1 is in an operation but mapped to none. -/
theorem C38_overlap_violated :
    (overlapInfo.map (fun i => (i.data.map Prod.snd, i.map.get (lineSetup.name 1)))) =
      some ([[0, 1], [1, 2]], some (fusedId lineSetup [1, 2])) ∧
    ((overlapInfo.bind (fun i => removeOp lineSetup i (fusedId lineSetup [1, 2]))).map (fun i =>
      (i.data.map Prod.snd, isFused i 1, i.map.get (lineSetup.name 1)))) =
      some ([[0, 1]], true, none) := by
  constructor <;> decide +kernel

/-- **C38**: asking whether a layer of a manual operation is quantized raises: the operation matches no
pattern and has no configuration. -/
theorem C38_missing_config_violated :
    ((mkInfo lineSetup [⟨[0, 1], (none : Option Unit)⟩] [] []).bind (fun i =>
      (addManual i [lineSetup.name 1, lineSetup.name 2]).bind (fun i =>
        (addOp lineSetup i (fusedId lineSetup [1, 2]) [1, 2]).map (fun i =>
          (validate lineSetup lineGraph i, isQuantizedInFln lineSetup (fun _ => true) i 1))))) =
      some (true, none) := by
  decide +kernel

/-- A history that meets the hypotheses: add an operation, remove it, add a longer one. -/
example : ∃ (i j : Info Nat Nat Unit), Consistent lineSetup i ∧
    History lineSetup i [.add (fusedId lineSetup [0, 1]) [0, 1], .remove (fusedId lineSetup [0, 1]),
      .manual [lineSetup.name 0], .add (fusedId lineSetup [0, 1, 2]) [0, 1, 2]] j ∧
    j.data.map Prod.snd = [[0, 1, 2]] := by
  let i0 : Info Nat Nat Unit := ⟨[⟨[0, 1], none⟩], [], [], [], []⟩
  let i1 := (addOp lineSetup i0 (fusedId lineSetup [0, 1]) [0, 1]).get (by decide +kernel)
  let i2 := (removeOp lineSetup i1 (fusedId lineSetup [0, 1])).get (by decide +kernel)
  let i3 := (addManual i2 [lineSetup.name 0]).get (by decide +kernel)
  let i4 := (addOp lineSetup i3 (fusedId lineSetup [0, 1, 2]) [0, 1, 2]).get (by decide +kernel)
  refine ⟨i0, i4, ⟨by simp [i0], by simp [i0], by simp [i0, Dict.get_nil], by simp [i0, Dict.get_nil]⟩,
    .cons (j := i1) (by simp [Call.run, i1]) ?_ (.cons (j := i2) (by simp [Call.run, i2]) ?_
      (.cons (j := i3) (by simp [Call.run, i3]) ?_ (.cons (j := i4) (by simp [Call.run, i4]) ?_ (.nil _)))),
    by decide +kernel⟩
  · rintro id nodes - n - id' w hw
    simp [i0] at hw
  · rintro id nodes ⟨⟩
  · rintro id nodes ⟨⟩
  · rintro id nodes - n - id' w hw
    have : i3.data = [] := by decide +kernel
    rw [this] at hw
    simp at hw

end MCT.Fusing
