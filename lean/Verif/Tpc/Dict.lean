/-
Python dictionaries as association lists in insertion order, and the facts about them used by the
model of target platform capabilities and of quantization candidates.
-/
import Mathlib.Data.List.Basic
import Mathlib.Data.List.Nodup
import Mathlib.Tactic.Tauto

namespace MCT.Py

set_option linter.unusedSectionVars false

/-- A Python dictionary: its items in insertion order. -/
abbrev Dict (κ α : Type) := List (κ × α)

namespace Dict
variable {κ α β : Type} [DecidableEq κ]

/-- `d.get(k)`: the value stored under the key. -/
def get (d : Dict κ α) (k : κ) : Option α := (d.find? (fun p => decide (p.1 = k))).map (·.2)

/-- `k in d`. -/
def has (d : Dict κ α) (k : κ) : Bool := d.any (fun p => decide (p.1 = k))

/-- `d.keys()`. -/
def keys (d : Dict κ α) : List κ := d.map (·.1)

/-- `d[k] = v`: a present key keeps its place. -/
def set (d : Dict κ α) (k : κ) (v : α) : Dict κ α :=
  if d.has k then d.map (fun p => if p.1 = k then (p.1, v) else p) else d ++ [(k, v)]

/-- `{k: v for (k, v) in items}`: a repeated key keeps its first place and its last value. -/
def ofItems (items : List (κ × α)) : Dict κ α := items.foldl (fun d p => d.set p.1 p.2) []

theorem has_iff (d : Dict κ α) (k : κ) : d.has k = true ↔ k ∈ d.keys := by
  simp [has, keys]

theorem get_nil (k : κ) : get ([] : Dict κ α) k = none := rfl

theorem get_cons (p : κ × α) (d : Dict κ α) (k : κ) :
    get (p :: d) k = if p.1 = k then some p.2 else get d k := by
  unfold get
  by_cases h : p.1 = k <;> simp [h]

theorem get_none_iff (d : Dict κ α) (k : κ) : get d k = none ↔ k ∉ d.keys := by
  induction d with
  | nil => simp [get_nil, keys]
  | cons p d ih =>
    rw [get_cons]
    by_cases h : p.1 = k
    · simp [h, keys]
    · simp only [h, if_false, ih, keys, List.map_cons, List.mem_cons]
      have : ¬ k = p.1 := fun hh => h hh.symm
      simp [this]

theorem get_some_mem {d : Dict κ α} {k : κ} {v : α} (h : get d k = some v) : (k, v) ∈ d := by
  induction d with
  | nil => simp [get_nil] at h
  | cons p d ih =>
    rw [get_cons] at h
    by_cases hk : p.1 = k
    · rw [if_pos hk] at h
      have : p = (k, v) := by
        cases p; simp only at hk h; subst hk; simpa using h
      simp [this]
    · rw [if_neg hk] at h
      exact List.mem_cons_of_mem _ (ih h)

theorem get_of_mem {d : Dict κ α} {k : κ} {v : α} (hn : d.keys.Nodup) (h : (k, v) ∈ d) :
    get d k = some v := by
  induction d with
  | nil => simp at h
  | cons p d ih =>
    rw [get_cons]
    simp only [keys, List.map_cons, List.nodup_cons] at hn
    rcases List.mem_cons.mp h with h | h
    · subst h; simp
    · have : ¬ p.1 = k := by
        intro hh
        exact hn.1 (hh ▸ List.mem_map_of_mem (f := fun q : κ × α => q.1) h)
      rw [if_neg this]
      exact ih hn.2 h

theorem get_append (d e : Dict κ α) (k : κ) :
    get (d ++ e) k = (get d k).orElse (fun _ => get e k) := by
  induction d with
  | nil => simp [get_nil]
  | cons p d ih =>
    rw [List.cons_append, get_cons, get_cons, ih]
    split <;> simp

theorem get_map_values (f : κ → α → β) (d : Dict κ α) (k : κ) :
    get (d.map (fun p => (p.1, f p.1 p.2))) k = (get d k).map (f k) := by
  induction d with
  | nil => simp [get_nil]
  | cons p d ih =>
    rw [List.map_cons, get_cons, get_cons, ih]
    by_cases h : p.1 = k
    · simp [h]
    · simp [h]

theorem keys_map_values (f : κ → α → β) (d : Dict κ α) :
    keys (d.map (fun p => (p.1, f p.1 p.2))) = keys d := by
  simp [keys, Function.comp_def]

theorem get_set (d : Dict κ α) (k : κ) (v : α) (j : κ) :
    get (d.set k v) j = if j = k then some v else get d j := by
  unfold set
  split
  · rename_i h
    have he : (d.map (fun p => if p.1 = k then (p.1, v) else p))
        = d.map (fun p => (p.1, if p.1 = k then v else p.2)) := by
      apply List.map_congr_left
      intro p _
      by_cases hp : p.1 = k <;> simp [hp]
    rw [he, get_map_values (fun i w => if i = k then v else w)]
    by_cases hj : j = k
    · subst hj
      rw [if_pos rfl]
      have : get d j ≠ none := by
        rw [Ne, get_none_iff]
        simpa [has_iff] using h
      cases hg : get d j with
      | none => exact absurd hg this
      | some w => simp
    · simp [hj]
  · rename_i h
    have hn : get d k = none := by
      rw [get_none_iff]
      simpa [has_iff] using h
    rw [get_append, get_cons, get_nil]
    by_cases hj : j = k
    · subst hj; simp [hn]
    · have hj' : ¬ k = j := fun hh => hj hh.symm
      simp only [if_neg hj, if_neg hj']
      cases get d j <;> simp

theorem keys_set (d : Dict κ α) (k : κ) (v : α) :
    (d.set k v).keys = if k ∈ d.keys then d.keys else d.keys ++ [k] := by
  unfold set
  by_cases h : d.has k = true
  · have hk := (has_iff d k).mp h
    rw [if_pos h, if_pos hk]
    unfold keys
    rw [List.map_map]
    apply List.map_congr_left
    intro p _
    by_cases hp : p.1 = k <;> simp [hp]
  · have hk : ¬ k ∈ d.keys := fun hh => h ((has_iff d k).mpr hh)
    rw [if_neg h, if_neg hk]
    simp [keys]

theorem nodup_set {d : Dict κ α} (k : κ) (v : α) (h : d.keys.Nodup) : (d.set k v).keys.Nodup := by
  rw [keys_set]
  split
  · exact h
  · rename_i hk
    rw [List.nodup_append]
    refine ⟨h, by simp, ?_⟩
    intro a ha b hb hab
    simp only [List.mem_singleton] at hb
    subst hb; subst hab
    exact hk ha

theorem nodup_foldl_set (items : List (κ × α)) (d : Dict κ α) (h : d.keys.Nodup) :
    (items.foldl (fun d p => d.set p.1 p.2) d).keys.Nodup := by
  induction items generalizing d with
  | nil => exact h
  | cons p items ih => exact ih _ (nodup_set _ _ h)

theorem nodup_ofItems (items : List (κ × α)) : (ofItems items).keys.Nodup :=
  nodup_foldl_set items [] (by simp [keys])

theorem get_foldl_set (items : List (κ × α)) (d : Dict κ α) (k : κ) :
    get (items.foldl (fun d p => d.set p.1 p.2) d) k
      = (get items.reverse k).orElse (fun _ => get d k) := by
  induction items generalizing d with
  | nil => simp [get_nil]
  | cons p items ih =>
    rw [List.foldl_cons, ih, List.reverse_cons, get_append, get_set, get_cons, get_nil]
    cases get items.reverse k with
    | some v => simp
    | none =>
      by_cases h : k = p.1
      · subst h; simp
      · have h' : ¬ p.1 = k := fun hh => h hh.symm
        simp [h, h']

/-- The value under a key of a dictionary built from items is that of the last item with this key. -/
theorem get_ofItems (items : List (κ × α)) (k : κ) : get (ofItems items) k = get items.reverse k := by
  unfold ofItems
  rw [get_foldl_set]
  cases get items.reverse k <;> simp [get_nil]

theorem keys_reverse_mem (items : List (κ × α)) (k : κ) :
    k ∈ keys items.reverse ↔ k ∈ keys items := by
  simp [keys]

theorem mem_keys_ofItems (items : List (κ × α)) (k : κ) :
    k ∈ (ofItems items).keys ↔ k ∈ keys items := by
  have h1 := get_none_iff (ofItems items) k
  have h2 := get_none_iff items.reverse k
  rw [get_ofItems] at h1
  rw [keys_reverse_mem] at h2
  tauto

theorem ofItems_of_nodup_aux (items : List (κ × α)) (d : Dict κ α)
    (h : (keys (d ++ items)).Nodup) :
    items.foldl (fun d p => d.set p.1 p.2) d = d ++ items := by
  induction items generalizing d with
  | nil => simp
  | cons p items ih =>
    rw [List.foldl_cons]
    have hp : d.set p.1 p.2 = d ++ [p] := by
      unfold set
      have : ¬ d.has p.1 = true := by
        rw [has_iff]
        intro hh
        simp only [keys, List.map_append, List.map_cons, List.nodup_append] at h
        exact h.2.2 p.1 hh p.1 (by simp) rfl
      rw [if_neg this]
    rw [hp, ih]
    · simp
    · simpa using h

/-- Items with distinct keys are kept as they are. -/
theorem ofItems_of_nodup (items : List (κ × α)) (h : (keys items).Nodup) : ofItems items = items := by
  simpa [ofItems] using ofItems_of_nodup_aux items [] (by simpa using h)

end Dict
end MCT.Py
