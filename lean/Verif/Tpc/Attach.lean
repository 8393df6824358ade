/-
Attaching operator sets to layers, choosing the options of a node (C49), and fusing patterns (C82, C83).
-/
import Verif.Tpc.Options
import Verif.Tpc.Filters

namespace MCT.TpcSpec
open MCT.Py MCT.Tpc

variable {κ ν : Type} [DecidableEq κ] [DecidableEq ν]

/-- The options chosen for a node: those of a filter it satisfies; if there is none, those of a layer type
it has; if there is none either, the default. -/
def Chosen (deflt : Qco κ) (m : Mapping κ ν) (n : Node ν) (q : Qco κ) : Prop :=
  (∃ f, (f, q) ∈ m.filters ∧ Satisfies n f) ∨
  ((∀ p ∈ m.filters, ¬ Satisfies n p.1) ∧ ∃ l, (l, q) ∈ m.layers ∧ n.fits l = true) ∨
  ((∀ p ∈ m.filters, ¬ Satisfies n p.1) ∧ (∀ p ∈ m.layers, n.fits p.1 = false) ∧ q = deflt)

/-- Two filters satisfied by the node lead to different options. -/
def FilterConflict (m : Mapping κ ν) (n : Node ν) : Prop :=
  ∃ p ∈ m.filters, ∃ p' ∈ m.filters, Satisfies n p.1 ∧ Satisfies n p'.1 ∧ p.2 ≠ p'.2

/-- Two types of the node lead to different options. -/
def TypeConflict (m : Mapping κ ν) (n : Node ν) : Prop :=
  ∃ p ∈ m.layers, ∃ p' ∈ m.layers, n.fits p.1 = true ∧ n.fits p'.1 = true ∧ p.2 ≠ p'.2

/-- The layers with the operator set they are attached to, in order. -/
def attached (os : List (OpLayers κ ν)) : List (OpLayers κ ν × LayerRef ν) :=
  os.flatMap (fun o => o.layers.map (fun l => (o, l)))

/-- The options the TPC gives to the operator set of a name: those of the set of this name, the default
when there is no such set or it has none. -/
def SetOptions (t : TpcV2 κ) (name : Name) (q : Qco κ) : Prop :=
  (∃ l s, t.opSets = some l ∧ s ∈ l ∧ s.name = name ∧ q = s.qco.getD t.defaultQco) ∨
  ((∀ l, t.opSets = some l → ∀ s ∈ l, s.name ≠ name) ∧ q = t.defaultQco)

/-- A layer belongs to a member of a fusing pattern: it is attached to the operator set of this name, or,
when there is none, to one of the sets of the group. -/
def BelongsTo (os : List (OpLayers κ ν)) (g : OpGroup κ) (l : LayerRef ν) : Prop :=
  (∃ o ∈ os, o.name = g.name ∧ l ∈ o.layers) ∨
  ((∀ o ∈ os, o.name ≠ g.name) ∧
    ∃ n sets, g = .group n sets ∧ ∃ s ∈ sets, ∃ o ∈ os, o.name = s.name ∧ l ∈ o.layers)

/-- A member of a fusing pattern covers another: it is the same, or a group with it. -/
def Covers (a b : OpGroup κ) : Prop :=
  a = b ∨ ∃ n sets s, a = .group n sets ∧ b = .set s ∧ s ∈ sets

end MCT.TpcSpec

namespace MCT.Tpc
open MCT.Py MCT.TpcSpec

set_option linter.unusedSectionVars false
set_option linter.unusedVariables false

variable {κ ν : Type} [DecidableEq κ] [DecidableEq ν]

theorem matchingFilters_mem {n : Node ν} {fs : List (Lfp ν × Qco κ)} {qs : List (Qco κ)}
    (h : matchingFilters n fs = some qs) (q : Qco κ) :
    q ∈ qs ↔ ∃ f, (f, q) ∈ fs ∧ Satisfies n f := by
  induction fs generalizing qs with
  | nil =>
    simp only [matchingFilters, Option.some.injEq] at h
    subst h; simp
  | cons p ps ih =>
    simp only [matchingFilters] at h
    cases hb : n.matchFilter p.1 with
    | none => rw [hb] at h; simp at h
    | some b =>
      rw [hb] at h
      simp only at h
      cases hm : matchingFilters n ps with
      | none => rw [hm] at h; simp at h
      | some qs' =>
        rw [hm] at h
        simp only [Option.some.injEq] at h
        subst h
        have hs := C48_filter_params n p.1 b hb
        have hi := ih hm
        obtain ⟨pf, pq⟩ := p
        cases b with
        | true =>
          have hsat := hs.mp rfl
          simp only [if_true, List.mem_cons, hi]
          constructor
          · rintro (h | ⟨f, h1, h2⟩)
            · exact ⟨pf, Or.inl (by rw [h]), hsat⟩
            · exact ⟨f, Or.inr h1, h2⟩
          · rintro ⟨f, h1 | h1, h2⟩
            · simp only [Prod.mk.injEq] at h1
              exact Or.inl h1.2
            · exact Or.inr ⟨f, h1, h2⟩
        | false =>
          have hsat : ¬ Satisfies n pf := fun hh => by simpa using hs.mpr hh
          simp only [Bool.false_eq_true, if_false, hi, List.mem_cons]
          constructor
          · rintro ⟨f, h1, h2⟩; exact ⟨f, Or.inr h1, h2⟩
          · rintro ⟨f, h1 | h1, h2⟩
            · simp only [Prod.mk.injEq] at h1
              exact absurd (h1.1 ▸ h2) hsat
            · exact ⟨f, h1, h2⟩

theorem matchingFilters_none {n : Node ν} {fs : List (Lfp ν × Qco κ)} :
    matchingFilters n fs = none ↔ ∃ p ∈ fs, n.matchFilter p.1 = none := by
  induction fs with
  | nil => simp [matchingFilters]
  | cons p ps ih =>
    simp only [matchingFilters]
    cases hb : n.matchFilter p.1 with
    | none => simp [hb]
    | some b =>
      simp only
      cases hm : matchingFilters n ps with
      | none =>
        rw [hm] at ih
        simp only [true_iff] at ih
        simp [hb, ih]
      | some qs =>
        rw [hm] at ih
        simp only [reduceCtorEq, false_iff] at ih
        simp [hb, ih]

theorem conflicting_iff (qs : List (Qco κ)) :
    conflicting qs = true ↔ ∃ a ∈ qs, ∃ b ∈ qs, a ≠ b := by
  unfold conflicting
  cases qs with
  | nil => simp
  | cons q rest =>
    simp only [List.any_eq_true, decide_eq_true_eq]
    constructor
    · rintro ⟨r, hr, hne⟩
      exact ⟨r, List.mem_cons_of_mem _ hr, q, by simp, hne⟩
    · rintro ⟨a, ha, b, hb, hne⟩
      by_cases h : a = q
      · rcases List.mem_cons.mp hb with hb | hb
        · exact absurd (h.trans hb.symm) hne
        · exact ⟨b, hb, fun hh => hne (h.trans hh.symm)⟩
      · rcases List.mem_cons.mp ha with ha | ha
        · exact absurd ha h
        · exact ⟨a, ha, h⟩

theorem layerMatches_mem (m : Mapping κ ν) (n : Node ν) (q : Qco κ) :
    q ∈ (m.layers.filter (fun p => n.fits p.1)).map (·.2) ↔
      ∃ l, (l, q) ∈ m.layers ∧ n.fits l = true := by
  rw [List.mem_map]
  constructor
  · rintro ⟨⟨l, q'⟩, h1, h2⟩
    rw [List.mem_filter] at h1
    simp only at h2
    subst h2
    exact ⟨l, h1.1, h1.2⟩
  · rintro ⟨l, h1, h2⟩
    exact ⟨(l, q), List.mem_filter.mpr ⟨h1, h2⟩, rfl⟩

/-- C49.  The options returned for a node are those the priority rule chooses, there is no conflict between
the filters it satisfies nor between its types, and so they are the only ones the rule chooses. -/
theorem C49_chosen (t : TpcV2 κ) (m : Mapping κ ν) (n : Node ν) (q : Qco κ)
    (h : fetch t m n = some q) :
    Chosen t.defaultQco m n q ∧ ¬ FilterConflict m n ∧ ¬ TypeConflict m n ∧
      ∀ q', Chosen t.defaultQco m n q' → q' = q := by
  unfold fetch at h
  cases hm : matchingFilters n m.filters with
  | none => rw [hm] at h; simp at h
  | some fq =>
    rw [hm] at h
    simp only at h
    have hmem := fun q => matchingFilters_mem hm q
    split at h
    · simp at h
    · rename_i hc1
      split at h
      · simp at h
      · rename_i hc2
        have nf : ¬ FilterConflict m n := by
          rintro ⟨⟨f, a⟩, hp, ⟨f', b⟩, hp', h1, h2, hne⟩
          exact hc1 ((conflicting_iff _).mpr ⟨a, (hmem a).mpr ⟨f, hp, h1⟩, b, (hmem b).mpr ⟨f', hp', h2⟩, hne⟩)
        have nt : ¬ TypeConflict m n := by
          rintro ⟨⟨f, a⟩, hp, ⟨f', b⟩, hp', h1, h2, hne⟩
          exact hc2 ((conflicting_iff _).mpr ⟨a, (layerMatches_mem m n a).mpr ⟨f, hp, h1⟩, b,
            (layerMatches_mem m n b).mpr ⟨f', hp', h2⟩, hne⟩)
        have hch : Chosen t.defaultQco m n q := by
          cases fq with
          | cons q0 fq' =>
            simp only [Option.some.injEq] at h
            subst h
            exact Or.inl ((hmem q0).mp (by simp))
          | nil =>
            have hno : ∀ p ∈ m.filters, ¬ Satisfies n p.1 := by
              intro p hp hs
              have := (hmem p.2).mpr ⟨p.1, hp, hs⟩
              simp at this
            simp only at h
            cases hq : (m.layers.filter (fun p => n.fits p.1)).map (·.2) with
            | cons q0 qs' =>
              rw [hq] at h
              simp only [Option.some.injEq] at h
              subst h
              refine Or.inr (Or.inl ⟨hno, ?_⟩)
              exact (layerMatches_mem m n q0).mp (by rw [hq]; simp)
            | nil =>
              rw [hq] at h
              simp only [Option.some.injEq] at h
              refine Or.inr (Or.inr ⟨hno, ?_, h.symm⟩)
              intro p hp
              by_contra hh
              have := (layerMatches_mem m n p.2).mpr ⟨p.1, hp, by simpa using hh⟩
              rw [hq] at this
              simp at this
        refine ⟨hch, nf, nt, ?_⟩
        intro q' hch'
        rcases hch with ⟨f, h1, h2⟩ | ⟨h0, l, h1, h2⟩ | ⟨h0, h1, h2⟩
        · rcases hch' with ⟨f', g1, g2⟩ | ⟨g0, _⟩ | ⟨g0, _⟩
          · by_contra hne
            exact nf ⟨_, g1, _, h1, g2, h2, hne⟩
          · exact absurd h2 (g0 _ h1)
          · exact absurd h2 (g0 _ h1)
        · rcases hch' with ⟨f', g1, g2⟩ | ⟨g0, l', g1, g2⟩ | ⟨g0, g1, _⟩
          · exact absurd g2 (h0 _ g1)
          · by_contra hne
            exact nt ⟨_, g1, _, h1, g2, h2, hne⟩
          · have := g1 _ h1
            simp only at this
            rw [h2] at this; simp at this
        · rcases hch' with ⟨f', g1, g2⟩ | ⟨g0, l', g1, g2⟩ | ⟨_, _, g2⟩
          · exact absurd g2 (h0 _ g1)
          · have := h1 _ g1
            simp only at this
            rw [g2] at this; simp at this
          · rw [g2, h2]

/-- C49.  The call fails exactly when a filter cannot be evaluated on the node, or two filters it satisfies
conflict, or two of its types conflict. -/
theorem C49_error (t : TpcV2 κ) (m : Mapping κ ν) (n : Node ν) :
    fetch t m n = none ↔
      (∃ p ∈ m.filters, n.matchFilter p.1 = none) ∨ FilterConflict m n ∨ TypeConflict m n := by
  constructor
  · intro h
    unfold fetch at h
    cases hm : matchingFilters n m.filters with
    | none => exact Or.inl (matchingFilters_none.mp hm)
    | some fq =>
      rw [hm] at h
      simp only at h
      have hmem := fun q => matchingFilters_mem hm q
      split at h
      · rename_i hc
        obtain ⟨a, ha, b, hb, hne⟩ := (conflicting_iff _).mp hc
        obtain ⟨f, h1, h2⟩ := (hmem a).mp ha
        obtain ⟨f', h1', h2'⟩ := (hmem b).mp hb
        exact Or.inr (Or.inl ⟨_, h1, _, h1', h2, h2', hne⟩)
      · split at h
        · rename_i hc
          obtain ⟨a, ha, b, hb, hne⟩ := (conflicting_iff _).mp hc
          obtain ⟨f, h1, h2⟩ := (layerMatches_mem m n a).mp ha
          obtain ⟨f', h1', h2'⟩ := (layerMatches_mem m n b).mp hb
          exact Or.inr (Or.inr ⟨_, h1, _, h1', h2, h2', hne⟩)
        · split at h
          · simp at h
          · split at h <;> simp at h
  · intro h
    cases hf : fetch t m n with
    | none => rfl
    | some q =>
      obtain ⟨_, nf, nt, _⟩ := C49_chosen t m n q hf
      rcases h with h | h | h
      · have := matchingFilters_none.mpr h
        unfold fetch at hf
        rw [this] at hf
        simp at hf
      · exact absurd h nf
      · exact absurd h nt

/-! ### The mappings -/

theorem layerOptions_result {t : TpcV2 κ} {o : OpLayers κ ν} {l : LayerRef ν} {q : Qco κ}
    (h : layerOptions t o l = some q) :
    ∃ q0, SetOptions t o.name q0 ∧
      q = q0.mapAttrKeys (o.attrMap.map (fun m => m.map (fun p => (p.1, p.2 l)))) := by
  unfold layerOptions at h
  cases hc : configOptions t o.name with
  | none => rw [hc] at h; simp at h
  | some qo =>
    rw [hc] at h
    simp only [Option.some.injEq] at h
    refine ⟨_, ?_, h.symm⟩
    unfold configOptions at hc
    cases ho : t.opSets with
    | none => rw [ho] at hc; simp at hc
    | some sets =>
      rw [ho] at hc
      simp only at hc
      cases hf : sets.find? (fun s => decide (s.name = o.name)) with
      | some s =>
        rw [hf] at hc
        simp only [Option.some.injEq] at hc
        subst hc
        have h1 := List.find?_some hf
        have h2 := List.mem_of_find?_eq_some hf
        exact Or.inl ⟨sets, s, ho, h2, by simpa using h1, rfl⟩
      | none =>
        rw [hf] at hc
        simp only [Option.some.injEq] at hc
        subst hc
        refine Or.inr ⟨?_, rfl⟩
        intro l' hl' s hs hn
        rw [ho] at hl'
        simp only [Option.some.injEq] at hl'
        subst hl'
        rw [List.find?_eq_none] at hf
        exact hf s hs (by simpa using hn)

/-- C49.  The options of an operator set by name: those of the set of this name in the platform (which may
be absent), and the default options when the platform has no set of this name.  It fails exactly when the
platform has no list of operator sets. -/
theorem C49_options_by_name (t : TpcV2 κ) (name : Name) :
    (configOptions t name = none ↔ t.opSets = none) ∧
    (∀ l, t.opSets = some l → (l.map (·.name)).Nodup → ∀ s ∈ l, s.name = name →
      configOptions t name = some s.qco) ∧
    (∀ l, t.opSets = some l → (∀ s ∈ l, s.name ≠ name) →
      configOptions t name = some (some t.defaultQco)) := by
  refine ⟨?_, ?_, ?_⟩
  · unfold configOptions
    cases t.opSets with
    | none => simp
    | some l =>
      simp only [reduceCtorEq, iff_false]
      cases l.find? (fun s => decide (s.name = name)) <;> simp
  · intro l hl hn s hs hname
    unfold configOptions
    rw [hl]
    simp only
    cases hf : l.find? (fun s => decide (s.name = name)) with
    | none =>
      rw [List.find?_eq_none] at hf
      exact absurd (by simpa using hname) (hf s hs)
    | some s' =>
      have h1 := List.find?_some hf
      have h2 := List.mem_of_find?_eq_some hf
      have : s' = s := List.inj_on_of_nodup_map hn h2 hs (by
        have h1' : s'.name = name := by simpa using h1
        rw [h1', hname])
      rw [this]
  · intro l hl hno
    unfold configOptions
    rw [hl]
    simp only
    have : l.find? (fun s => decide (s.name = name)) = none := by
      rw [List.find?_eq_none]
      intro s hs
      simpa using hno s hs
    rw [this]

/-- The mapping built from a list of layers with their operator sets, without duplicates. -/
def plainEntry (t : TpcV2 κ) (p : OpLayers κ ν × LayerRef ν) : Option (ν × Qco κ) :=
  match p.2 with
  | .plain x => (layerOptions t p.1 p.2).map (fun q => (x, q))
  | .filt _ => none

def filterEntry (t : TpcV2 κ) (p : OpLayers κ ν × LayerRef ν) : Option (Lfp ν × Qco κ) :=
  match p.2 with
  | .plain _ => none
  | .filt f => (layerOptions t p.1 p.2).map (fun q => (f, q))

/-- The keys of the mappings are among the layers seen. -/
def KeysIn (m : Mapping κ ν) (seen : List (LayerRef ν)) : Prop :=
  (∀ x ∈ m.layers.keys, LayerRef.plain x ∈ seen) ∧ (∀ p ∈ m.filters, LayerRef.filt p.1 ∈ seen)

theorem mapLayers_exact (s : Show ν) (t : TpcV2 κ) (o : OpLayers κ ν) (ls : List (LayerRef ν))
    (m : Mapping κ ν) (seen seen' : List (LayerRef ν)) (hk : KeysIn m seen)
    (hv : validateLayers s t o.name ls seen = some seen') :
    ∃ m', mapLayers s t o ls m = some m' ∧ KeysIn m' seen' ∧
      m'.layers = m.layers ++ (ls.map (fun l => (o, l))).filterMap (plainEntry t) ∧
      m'.filters = m.filters ++ (ls.map (fun l => (o, l))).filterMap (filterEntry t) := by
  induction ls generalizing m seen with
  | nil =>
    simp only [validateLayers, Option.some.injEq] at hv
    subst hv
    exact ⟨m, rfl, hk, by simp, by simp⟩
  | cons l ls ih =>
    simp only [validateLayers] at hv
    cases hc : configOptions t o.name with
    | none => rw [hc] at hv; simp at hv
    | some qo =>
      rw [hc] at hv
      simp only at hv
      split at hv
      · simp at hv
      · rename_i hns
        have hlo : ∃ q, layerOptions t o l = some q := by
          unfold layerOptions; rw [hc]; exact ⟨_, rfl⟩
        obtain ⟨q, hq⟩ := hlo
        simp only [mapLayers, hq]
        cases l with
        | plain x =>
          simp only
          have hnx : ¬ Dict.has m.layers x = true := by
            rw [Dict.has_iff]
            intro hx
            apply hns
            rw [List.any_eq_true]
            exact ⟨_, hk.1 x hx, by simp [LayerRef.sameKey]⟩
          have hset : Dict.set m.layers x q = m.layers ++ [(x, q)] := by
            unfold Dict.set; rw [if_neg hnx]
          obtain ⟨m', h1, h2, h3, h4⟩ := ih ⟨m.layers.set x q, m.filters⟩ (seen ++ [.plain x])
            (by
              constructor
              · intro y hy
                simp only [hset, Dict.keys, List.map_append, List.map_cons, List.map_nil,
                  List.mem_append, List.mem_singleton] at hy
                rcases hy with hy | hy
                · exact List.mem_append_left _ (hk.1 y hy)
                · subst hy; simp
              · intro p hp
                exact List.mem_append_left _ (hk.2 p hp)) hv
          refine ⟨m', h1, h2, ?_, ?_⟩
          · rw [h3]
            simp only [hset, List.map_cons]
            rw [List.filterMap_cons]
            simp [plainEntry, hq]
          · rw [h4]
            simp only [List.map_cons]
            rw [List.filterMap_cons]
            simp [filterEntry]
        | filt f =>
          simp only
          have hnf : ¬ m.filters.any (fun p => p.1.sameKey s f) = true := by
            intro hx
            rw [List.any_eq_true] at hx
            obtain ⟨p, hp, hpk⟩ := hx
            apply hns
            rw [List.any_eq_true]
            exact ⟨_, hk.2 p hp, by simpa [LayerRef.sameKey] using hpk⟩
          have hset : setFilter s m.filters f q = m.filters ++ [(f, q)] := by
            unfold setFilter; rw [if_neg hnf]
          obtain ⟨m', h1, h2, h3, h4⟩ := ih ⟨m.layers, setFilter s m.filters f q⟩ (seen ++ [.filt f])
            (by
              constructor
              · intro y hy
                exact List.mem_append_left _ (hk.1 y hy)
              · intro p hp
                simp only [hset, List.mem_append, List.mem_singleton] at hp
                rcases hp with hp | hp
                · exact List.mem_append_left _ (hk.2 p hp)
                · subst hp; simp) hv
          refine ⟨m', h1, h2, ?_, ?_⟩
          · rw [h3]
            simp only [List.map_cons]
            rw [List.filterMap_cons]
            simp [plainEntry]
          · rw [h4]
            simp only [hset, List.map_cons]
            rw [List.filterMap_cons]
            simp [filterEntry, hq]

theorem configMapping_exact (s : Show ν) (t : TpcV2 κ) (os : List (OpLayers κ ν)) (names : List Name)
    (m : Mapping κ ν) (seen : List (LayerRef ν)) (hk : KeysIn m seen)
    (hv : validateOpSets s t os names seen = some ()) :
    ∃ m', configMapping s t os m = some m' ∧
      m'.layers = m.layers ++ (attached os).filterMap (plainEntry t) ∧
      m'.filters = m.filters ++ (attached os).filterMap (filterEntry t) := by
  induction os generalizing m seen names with
  | nil => exact ⟨m, rfl, by simp [attached], by simp [attached]⟩
  | cons o os ih =>
    simp only [validateOpSets] at hv
    split at hv
    · simp at hv
    · cases hl : validateLayers s t o.name o.layers seen with
      | none => rw [hl] at hv; simp at hv
      | some seen' =>
        rw [hl] at hv
        simp only at hv
        obtain ⟨m1, h1, h2, h3, h4⟩ := mapLayers_exact s t o o.layers m seen seen' hk hl
        obtain ⟨m2, g1, g2, g3⟩ := ih (names ++ [o.name]) m1 seen' h2 hv
        simp only [configMapping, h1]
        refine ⟨m2, g1, ?_, ?_⟩
        · rw [g2, h3]; simp [attached, List.filterMap_append]
        · rw [g3, h4]; simp [attached, List.filterMap_append]

theorem validateOpSets_names (s : Show ν) (t : TpcV2 κ) (os : List (OpLayers κ ν)) (names : List Name)
    (seen : List (LayerRef ν)) (hn : names.Nodup) (hv : validateOpSets s t os names seen = some ()) :
    (names ++ os.map (·.name)).Nodup := by
  induction os generalizing names seen with
  | nil => simpa using hn
  | cons o os ih =>
    simp only [validateOpSets] at hv
    split at hv
    · simp at hv
    · rename_i hno
      cases hl : validateLayers s t o.name o.layers seen with
      | none => rw [hl] at hv; simp at hv
      | some seen' =>
        rw [hl] at hv
        simp only at hv
        have hn' : (names ++ [o.name]).Nodup := by
          rw [List.nodup_append]
          refine ⟨hn, by simp, ?_⟩
          intro a ha b hb hab
          simp only [List.mem_singleton] at hb
          subst hb; subst hab; exact hno ha
        have := ih (names ++ [o.name]) seen' hn' hv
        simpa using this

/-- C49.  For operator sets accepted by the validation, the mappings succeed, and they give every attached
layer and every attached filter the options of its own operator set, with the attributes renamed for it,
and nothing else. -/
theorem C49_mapping (s : Show ν) (t : TpcV2 κ) (os : List (OpLayers κ ν))
    (hv : validateOpSets s t os [] [] = some ()) :
    ∃ m, configMapping s t os ⟨[], []⟩ = some m ∧
      (∀ x q, (x, q) ∈ m.layers ↔ ∃ o ∈ os, .plain x ∈ o.layers ∧ layerOptions t o (.plain x) = some q) ∧
      (∀ f q, (f, q) ∈ m.filters ↔ ∃ o ∈ os, .filt f ∈ o.layers ∧ layerOptions t o (.filt f) = some q) := by
  obtain ⟨m, h1, h2, h3⟩ := configMapping_exact s t os [] ⟨[], []⟩ [] ⟨by simp [Dict.keys], by simp⟩ hv
  refine ⟨m, h1, ?_, ?_⟩
  · intro x q
    rw [h2]
    simp only [List.nil_append, List.mem_filterMap, attached, List.mem_flatMap, List.mem_map]
    constructor
    · rintro ⟨⟨o, l⟩, ⟨o', ho', l', hl', he⟩, hp⟩
      simp only [Prod.mk.injEq] at he
      obtain ⟨e1, e2⟩ := he
      subst e1; subst e2
      unfold plainEntry at hp
      cases l' with
      | plain y =>
        simp only [Option.map_eq_some_iff, Prod.mk.injEq] at hp
        obtain ⟨q', hq', e1, e2⟩ := hp
        subst e1; subst e2
        exact ⟨_, ho', hl', hq'⟩
      | filt f => simp at hp
    · rintro ⟨o, ho, hl, hq⟩
      exact ⟨(o, .plain x), ⟨o, ho, _, hl, rfl⟩, by simp [plainEntry, hq]⟩
  · intro f q
    rw [h3]
    simp only [List.nil_append, List.mem_filterMap, attached, List.mem_flatMap, List.mem_map]
    constructor
    · rintro ⟨⟨o, l⟩, ⟨o', ho', l', hl', he⟩, hp⟩
      simp only [Prod.mk.injEq] at he
      obtain ⟨e1, e2⟩ := he
      subst e1; subst e2
      unfold filterEntry at hp
      cases l' with
      | filt g =>
        simp only [Option.map_eq_some_iff, Prod.mk.injEq] at hp
        obtain ⟨q', hq', e1, e2⟩ := hp
        subst e1; subst e2
        exact ⟨_, ho', hl', hq'⟩
      | plain x => simp at hp
    · rintro ⟨o, ho, hl, hq⟩
      exact ⟨(o, .filt f), ⟨o, ho, _, hl, rfl⟩, by simp [filterEntry, hq]⟩

/-- C49.  The options given to a layer are those of its operator set in the TPC, or the default, with the
attributes renamed. -/
theorem C49_layer_options (t : TpcV2 κ) (o : OpLayers κ ν) (l : LayerRef ν) (q : Qco κ)
    (h : layerOptions t o l = some q) :
    ∃ q0, SetOptions t o.name q0 ∧
      q = q0.mapAttrKeys (o.attrMap.map (fun m => m.map (fun p => (p.1, p.2 l)))) :=
  layerOptions_result h

/-! ### Attaching -/

/-- What the framework attaches to an operator set: the custom layers of its name, else the known ones. -/
def knownOf (custom builtin : Dict Name (Known κ ν)) (name : Name) : Option (Known κ ν) :=
  (custom.get name).orElse (fun _ => builtin.get name)

theorem attachLoop_result (s : Show ν) (t : TpcV2 κ) (custom builtin : Dict Name (Known κ ν))
    (ps : List (OpSet κ)) (os os' : List (OpLayers κ ν))
    (h0 : validateOpSets s t os [] [] = some ())
    (h : attachLoop s t custom builtin ps os = some os') :
    validateOpSets s t os' [] [] = some () ∧
    (∀ p ∈ ps, (knownOf custom builtin p.name).isSome = true) ∧
    (∀ o, o ∈ os' ↔ o ∈ os ∨ ∃ p ∈ ps, ∃ k, knownOf custom builtin p.name = some k ∧
      o = ⟨p.name, k.layers, k.attrMap⟩ ∧ (custom.get p.name = none → k.layers ≠ [])) := by
  induction ps generalizing os with
  | nil =>
    simp only [attachLoop, Option.some.injEq] at h
    subst h
    exact ⟨h0, by simp, by simp⟩
  | cons p ps ih =>
    simp only [attachLoop] at h
    cases hc : custom.get p.name with
    | some k =>
      rw [hc] at h
      simp only at h
      cases ha : addOpLayers s t os ⟨p.name, k.layers, k.attrMap⟩ with
      | none => rw [ha] at h; simp at h
      | some os1 =>
        rw [ha] at h
        simp only at h
        unfold addOpLayers at ha
        cases hval : validateOpSets s t (os ++ [⟨p.name, k.layers, k.attrMap⟩]) [] [] with
        | none => rw [hval] at ha; simp at ha
        | some u =>
          rw [hval] at ha
          simp only [Option.some.injEq] at ha
          subst ha
          obtain ⟨g1, g2, g3⟩ := ih _ hval h
          have hkn : knownOf custom builtin p.name = some k := by simp [knownOf, hc]
          refine ⟨g1, ?_, ?_⟩
          · intro p' hp'
            rcases List.mem_cons.mp hp' with hp' | hp'
            · subst hp'; simp [hkn]
            · exact g2 p' hp'
          · intro o
            rw [g3 o]
            simp only [List.mem_append, List.mem_cons, List.not_mem_nil, or_false]
            constructor
            · rintro ((h1 | h1) | ⟨p', h1, h2⟩)
              · exact Or.inl h1
              · exact Or.inr ⟨p, Or.inl rfl, k, hkn, h1, by simp [hc]⟩
              · exact Or.inr ⟨p', Or.inr h1, h2⟩
            · rintro (h1 | ⟨p', h1 | h1, k', h2, h3, h4⟩)
              · exact Or.inl (Or.inl h1)
              · subst h1
                rw [hkn] at h2
                simp only [Option.some.injEq] at h2
                subst h2
                exact Or.inl (Or.inr h3)
              · exact Or.inr ⟨p', h1, k', h2, h3, h4⟩
    | none =>
      rw [hc] at h
      simp only at h
      cases hb : builtin.get p.name with
      | none => rw [hb] at h; simp at h
      | some k =>
        rw [hb] at h
        simp only at h
        have hkn : knownOf custom builtin p.name = some k := by simp [knownOf, hc, hb]
        split at h
        · rename_i hemp
          obtain ⟨g1, g2, g3⟩ := ih _ h0 h
          refine ⟨g1, ?_, ?_⟩
          · intro p' hp'
            rcases List.mem_cons.mp hp' with hp' | hp'
            · subst hp'; simp [hkn]
            · exact g2 p' hp'
          · intro o
            rw [g3 o]
            simp only [List.mem_cons]
            constructor
            · rintro (h1 | ⟨p', h1, h2⟩)
              · exact Or.inl h1
              · exact Or.inr ⟨p', Or.inr h1, h2⟩
            · rintro (h1 | ⟨p', h1 | h1, k', h2, h3, h4⟩)
              · exact Or.inl h1
              · subst h1
                rw [hkn] at h2
                simp only [Option.some.injEq] at h2
                subst h2
                exact absurd (List.isEmpty_iff.mp hemp) (h4 hc)
              · exact Or.inr ⟨p', h1, k', h2, h3, h4⟩
        · rename_i hemp
          cases ha : addOpLayers s t os ⟨p.name, k.layers, k.attrMap⟩ with
          | none => rw [ha] at h; simp at h
          | some os1 =>
            rw [ha] at h
            simp only at h
            unfold addOpLayers at ha
            cases hval : validateOpSets s t (os ++ [⟨p.name, k.layers, k.attrMap⟩]) [] [] with
            | none => rw [hval] at ha; simp at ha
            | some u =>
              rw [hval] at ha
              simp only [Option.some.injEq] at ha
              subst ha
              obtain ⟨g1, g2, g3⟩ := ih _ hval h
              have hne : k.layers ≠ [] := fun hh => hemp (List.isEmpty_iff.mpr hh)
              refine ⟨g1, ?_, ?_⟩
              · intro p' hp'
                rcases List.mem_cons.mp hp' with hp' | hp'
                · subst hp'; simp [hkn]
                · exact g2 p' hp'
              · intro o
                rw [g3 o]
                simp only [List.mem_append, List.mem_cons, List.not_mem_nil, or_false]
                constructor
                · rintro ((h1 | h1) | ⟨p', h1, h2⟩)
                  · exact Or.inl h1
                  · exact Or.inr ⟨p, Or.inl rfl, k, hkn, h1, fun _ => hne⟩
                  · exact Or.inr ⟨p', Or.inr h1, h2⟩
                · rintro (h1 | ⟨p', h1 | h1, k', h2, h3, h4⟩)
                  · exact Or.inl (Or.inl h1)
                  · subst h1
                    rw [hkn] at h2
                    simp only [Option.some.injEq] at h2
                    subst h2
                    exact Or.inl (Or.inr h3)
                  · exact Or.inr ⟨p', h1, k', h2, h3, h4⟩

/-- C49.  After attaching a TPC to a framework, the options of a layer or of a filter are those of an
operator set of the TPC to which the framework (the custom sets first) attaches it. -/
theorem C49_attach (s : Show ν) (t : TpcV2 κ) (custom builtin : Dict Name (Known κ ν))
    (os : List (OpLayers κ ν)) (m : Mapping κ ν) (h : attach s t custom builtin = some (os, m)) :
    (∀ p ∈ t.opSets.getD [], (knownOf custom builtin p.name).isSome = true) ∧
    (∀ x q, (x, q) ∈ m.layers ↔ ∃ p ∈ t.opSets.getD [], ∃ k, knownOf custom builtin p.name = some k ∧
      .plain x ∈ k.layers ∧ layerOptions t ⟨p.name, k.layers, k.attrMap⟩ (.plain x) = some q) ∧
    (∀ f q, (f, q) ∈ m.filters ↔ ∃ p ∈ t.opSets.getD [], ∃ k, knownOf custom builtin p.name = some k ∧
      .filt f ∈ k.layers ∧ layerOptions t ⟨p.name, k.layers, k.attrMap⟩ (.filt f) = some q) := by
  unfold attach at h
  cases hl : attachLoop s t custom builtin (t.opSets.getD []) [] with
  | none => rw [hl] at h; simp at h
  | some os1 =>
    rw [hl] at h
    simp only at h
    obtain ⟨g1, g2, g3⟩ := attachLoop_result s t custom builtin _ [] os1 rfl hl
    obtain ⟨m1, e1, e2, e3⟩ := C49_mapping s t os1 g1
    rw [e1] at h
    simp only [Option.some.injEq, Prod.mk.injEq] at h
    obtain ⟨h1, h2⟩ := h
    subst h1; subst h2
    refine ⟨g2, ?_, ?_⟩
    · intro x q
      rw [e2]
      constructor
      · rintro ⟨o, ho, hx, hq⟩
        rw [g3] at ho
        rcases ho with ho | ⟨p, hp, k, hk, he, _⟩
        · simp at ho
        · subst he; exact ⟨p, hp, k, hk, hx, hq⟩
      · rintro ⟨p, hp, k, hk, hx, hq⟩
        refine ⟨_, (g3 _).mpr (Or.inr ⟨p, hp, k, hk, rfl, ?_⟩), hx, hq⟩
        intro _ hh
        rw [hh] at hx
        simp at hx
    · intro x q
      rw [e3]
      constructor
      · rintro ⟨o, ho, hx, hq⟩
        rw [g3] at ho
        rcases ho with ho | ⟨p, hp, k, hk, he, _⟩
        · simp at ho
        · subst he; exact ⟨p, hp, k, hk, hx, hq⟩
      · rintro ⟨p, hp, k, hk, hx, hq⟩
        refine ⟨_, (g3 _).mpr (Or.inr ⟨p, hp, k, hk, rfl, ?_⟩), hx, hq⟩
        intro _ hh
        rw [hh] at hx
        simp at hx

/-! ### Fusing patterns -/

theorem mem_product {α : Type} (ls : List (List α)) (x : List α) :
    x ∈ product ls ↔ List.Forall₂ (fun a l => a ∈ l) x ls := by
  induction ls generalizing x with
  | nil => cases x <;> simp [product]
  | cons l ls ih =>
    simp only [product, List.mem_flatMap, List.mem_map]
    constructor
    · rintro ⟨a, ha, r, hr, he⟩
      subst he
      exact List.Forall₂.cons ha ((ih r).mp hr)
    · intro h
      cases h with
      | cons h1 h2 => exact ⟨_, h1, _, (ih _).mpr h2, rfl⟩

theorem find_named {os : List (OpLayers κ ν)} (hn : (os.map (·.name)).Nodup) {o : OpLayers κ ν}
    (ho : o ∈ os) {name : Name} (he : o.name = name) :
    os.find? (fun o => decide (name = o.name)) = some o := by
  induction os with
  | nil => simp at ho
  | cons a os ih =>
    rw [List.find?_cons]
    by_cases h : name = a.name
    · rw [decide_eq_true h]
      simp only [List.map_cons, List.nodup_cons] at hn
      rcases List.mem_cons.mp ho with ho | ho
      · rw [ho]
      · exfalso
        exact hn.1 (List.mem_map.mpr ⟨o, ho, he.trans h⟩)
    · rw [decide_eq_false h]
      simp only [List.map_cons, List.nodup_cons] at hn
      rcases List.mem_cons.mp ho with ho | ho
      · exact absurd (ho ▸ he.symm) h
      · exact ih hn.2 ho

theorem find_unnamed {os : List (OpLayers κ ν)} {name : Name} :
    os.find? (fun o => decide (name = o.name)) = none ↔ ∀ o ∈ os, o.name ≠ name := by
  rw [List.find?_eq_none]
  constructor
  · intro h o ho he; exact h o ho (by simpa using he.symm)
  · intro h o ho he; exact h o ho (by simpa using (of_decide_eq_true he).symm)

theorem layersOfSet_mem {os : List (OpLayers κ ν)} (hn : (os.map (·.name)).Nodup) (name : Name)
    (l : LayerRef ν) : l ∈ layersOfSet os name ↔ ∃ o ∈ os, o.name = name ∧ l ∈ o.layers := by
  unfold layersOfSet
  cases hf : os.find? (fun o => decide (name = o.name)) with
  | some o =>
    have h1 := List.find?_some hf
    have h2 := List.mem_of_find?_eq_some hf
    simp only [decide_eq_true_eq] at h1
    constructor
    · intro h; exact ⟨o, h2, h1.symm, h⟩
    · rintro ⟨o', h3, h4, h5⟩
      have := find_named hn h3 h4
      rw [hf] at this
      simp only [Option.some.injEq] at this
      rw [this]; exact h5
  | none =>
    rw [find_unnamed] at hf
    simp only [List.not_mem_nil, false_iff]
    rintro ⟨o, h1, h2, _⟩
    exact hf o h1 h2

theorem layersByOp_mem {os : List (OpLayers κ ν)} (hn : (os.map (·.name)).Nodup) (g : OpGroup κ)
    (l : LayerRef ν) : l ∈ layersByOp os g ↔ BelongsTo os g l := by
  unfold layersByOp BelongsTo
  cases hf : os.find? (fun o => decide (g.name = o.name)) with
  | some o =>
    have h1 := List.find?_some hf
    have h2 := List.mem_of_find?_eq_some hf
    simp only [decide_eq_true_eq] at h1
    constructor
    · intro h; exact Or.inl ⟨o, h2, h1.symm, h⟩
    · rintro (⟨o', h3, h4, h5⟩ | ⟨h3, _⟩)
      · have := find_named hn h3 h4
        rw [hf] at this
        simp only [Option.some.injEq] at this
        rw [this]; exact h5
      · exact absurd h1.symm (h3 o h2)
  | none =>
    rw [find_unnamed] at hf
    cases g with
    | set s =>
      simp only [List.not_mem_nil, false_iff]
      rintro (⟨o, h1, h2, _⟩ | ⟨_, n, sets, h1, _⟩)
      · exact hf o h1 h2
      · simp at h1
    | group n sets =>
      simp only [List.mem_flatMap]
      constructor
      · rintro ⟨s, hs, hl⟩
        exact Or.inr ⟨hf, n, sets, rfl, s, hs, (layersOfSet_mem hn _ _).mp hl⟩
      · rintro (⟨o, h1, h2, _⟩ | ⟨_, n', sets', h1, s, hs, hl⟩)
        · exact absurd h2 (hf o h1)
        · simp only [OpGroup.group.injEq] at h1
          rw [h1.2]
          exact ⟨s, hs, (layersOfSet_mem hn _ _).mpr hl⟩

/-- C82.  The fusing patterns of an attached TPC are exactly the sequences of layers that take one layer
from each member of a fusing entry of the TPC, with the configuration of this entry; a TPC without fusing
entries has none. -/
theorem C82_fusing_patterns (t : TpcV2 κ) (os : List (OpLayers κ ν)) (hn : (os.map (·.name)).Nodup)
    (ls : List (LayerRef ν)) (cfg : Option (OpCfg κ)) :
    (ls, cfg) ∈ fusingPatterns t os ↔
      ∃ fs f, t.fusing = some fs ∧ f ∈ fs ∧ cfg = f.cfg ∧
        List.Forall₂ (fun l g => BelongsTo os g l) ls f.groups := by
  have key : ∀ (gs : List (OpGroup κ)) (ls : List (LayerRef ν)),
      List.Forall₂ (fun a l => a ∈ l) ls (gs.map (layersByOp os)) ↔
        List.Forall₂ (fun l g => BelongsTo os g l) ls gs := by
    intro gs ls
    rw [List.forall₂_map_right_iff]
    constructor
    · intro h; exact h.imp (fun a b hab => (layersByOp_mem hn _ _).mp hab)
    · intro h; exact h.imp (fun a b hab => (layersByOp_mem hn _ _).mpr hab)
  unfold fusingPatterns
  cases hf : t.fusing with
  | none => simp
  | some fs =>
    simp only [List.mem_flatMap, List.mem_map, Prod.mk.injEq]
    constructor
    · rintro ⟨f, h1, x, h2, h3, h4⟩
      subst h3
      exact ⟨fs, f, rfl, h1, h4.symm, (key _ _).mp ((mem_product _ _).mp h2)⟩
    · rintro ⟨fs', f, h1, h2, h3, h4⟩
      simp only [Option.some.injEq] at h1
      subst h1
      exact ⟨f, h2, ls, (mem_product _ _).mpr ((key _ _).mpr h4), rfl, h3.symm⟩

/-- C82.  Attached operator sets have distinct names. -/
theorem C82_names_distinct (s : Show ν) (t : TpcV2 κ) (os : List (OpLayers κ ν))
    (hv : validateOpSets s t os [] [] = some ()) : (os.map (·.name)).Nodup := by
  simpa using validateOpSets_names s t os [] [] List.nodup_nil hv

theorem groupCovers_iff (a b : OpGroup κ) : groupCovers a b = true ↔ Covers a b := by
  unfold groupCovers Covers
  rw [Bool.or_eq_true, decide_eq_true_iff]
  refine or_congr Iff.rfl ?_
  cases a <;> cases b <;> simp

theorem coversFrom_iff (a b : List (OpGroup κ)) :
    coversFrom a b = true ↔ ∃ mid post, a = mid ++ post ∧ List.Forall₂ Covers mid b := by
  induction b generalizing a with
  | nil =>
    constructor
    · intro _; exact ⟨[], a, rfl, List.Forall₂.nil⟩
    · intro _; cases a <;> rfl
  | cons y ys ih =>
    cases a with
    | nil =>
      simp only [coversFrom, Bool.false_eq_true, false_iff]
      rintro ⟨mid, post, h1, h2⟩
      cases h2
      simp at h1
    | cons x xs =>
      simp only [coversFrom, Bool.and_eq_true, groupCovers_iff, ih]
      constructor
      · rintro ⟨h1, mid, post, h2, h3⟩
        exact ⟨x :: mid, post, by rw [h2]; rfl, List.Forall₂.cons h1 h3⟩
      · rintro ⟨mid, post, h1, h2⟩
        cases h2 with
        | cons h3 h4 =>
          simp only [List.cons_append, List.cons.injEq] at h1
          rw [h1.1]
          exact ⟨h3, _, post, h1.2, h4⟩

/-- C83.  A fusing entry contains another exactly when consecutive members of it cover the members of the
other one by one. -/
theorem C83_contains (a b : List (OpGroup κ)) :
    contains a b = true ↔ ∃ pre mid post, a = pre ++ mid ++ post ∧ List.Forall₂ Covers mid b := by
  unfold contains
  rw [List.any_eq_true]
  constructor
  · rintro ⟨i, _, h⟩
    obtain ⟨mid, post, h1, h2⟩ := (coversFrom_iff _ _).mp h
    exact ⟨a.take i, mid, post, by rw [List.append_assoc, ← h1, List.take_append_drop], h2⟩
  · rintro ⟨pre, mid, post, h1, h2⟩
    refine ⟨pre.length, ?_, ?_⟩
    · rw [List.mem_range]
      have := h2.length_eq
      rw [h1]
      simp only [List.length_append]
      omega
    · rw [coversFrom_iff]
      refine ⟨mid, post, ?_, h2⟩
      rw [h1, List.append_assoc, List.drop_left]

/-! #### A concrete platform -/

def convSet : OpSet Nat := ⟨['C'], some sampleQco⟩
def reluSet : OpSet Nat := ⟨['R'], none⟩
def sampleTpc : TpcV2 Nat where
  defaultQco := ⟨[sampleCfg 8], sampleCfg 8⟩
  opSets := some [convSet, reluSet]
  fusing := some [⟨[.set convSet, .group ['g'] [reluSet]], none, ['f']⟩]
  minor := none
  patch := none
  platform := none
  addMetadata := true
  name := none
  simdPadding := false
  insertPreserving := false

def sampleShow : Show Nat := ⟨fun n => if n = 0 then ['z'] else ['o'], fun _ => ['v'], fun _ => ['c']⟩
def sampleKnown : Dict Name (Known Nat Nat) :=
  [(['C'], ⟨[.plain 0], none⟩), (['R'], ⟨[.plain 1, .filt ⟨2, [], [(['a'], .str ['r'])]⟩], none⟩)]
def reluNode : Node Nat := ⟨fun l => decide (l = 2), [(['a'], .str ['r'])], none⟩

example : sampleTpc.opSets = some [convSet, reluSet] ∧ ([convSet, reluSet].map (·.name)).Nodup ∧
    configOptions sampleTpc ['C'] = some (some sampleQco) ∧ configOptions sampleTpc ['R'] = some none ∧
    configOptions sampleTpc ['X'] = some (some sampleTpc.defaultQco) := by decide +kernel
example : ∃ os m, attach sampleShow sampleTpc [] sampleKnown = some (os, m) ∧
    fetch sampleTpc m reluNode = some (sampleTpc.defaultQco.mapAttrKeys none) :=
  ⟨_, _, rfl, by decide +kernel⟩
example : validateOpSets sampleShow sampleTpc
    [⟨['C'], [.plain 0], none⟩, ⟨['R'], [.plain 1], none⟩] [] [] = some () := by decide +kernel
example : (fusingPatterns sampleTpc [⟨['C'], [LayerRef.plain 0], none⟩,
    ⟨['R'], [.plain 1, .plain 2], none⟩]).length = 2 := by decide +kernel
example : contains [OpGroup.set convSet, .group ['g'] [reluSet]] [.set reluSet] = true := by decide +kernel

end MCT.Tpc
