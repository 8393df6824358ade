import Verif.XQuant.Spec
import Verif.Common.Lists

namespace MCT.XQuant
open MCT

/-! ### Dictionaries -/

theorem lookup_eq_none {β : Type} (d : Dict β) (k : String) : d.lookup k = none ↔ k ∉ d.map Prod.fst := by
  induction d with
  | nil => simp
  | cons p d ih =>
    obtain ⟨a, b⟩ := p
    by_cases h : k = a
    · subst h; simp
    · have : (k == a) = false := by simpa using h
      simp [List.lookup_cons, this, ih, h]

theorem lookup_isSome {β : Type} (d : Dict β) (k : String) :
    (∃ v, d.lookup k = some v) ↔ k ∈ d.map Prod.fst := by
  have := lookup_eq_none d k
  cases h : d.lookup k with
  | none => simp [h] at this; simp; exact this
  | some v => simp [h] at this; simp; exact this

theorem lookup_mem {β : Type} (d : Dict β) (hd : (d.map Prod.fst).Nodup) {k : String} {v : β}
    (h : (k, v) ∈ d) : d.lookup k = some v := by
  induction d with
  | nil => simp at h
  | cons p d ih =>
    obtain ⟨a, b⟩ := p
    simp only [List.map_cons, List.nodup_cons] at hd
    rcases List.mem_cons.1 h with h | h
    · cases h; simp [List.lookup_cons]
    · have hne : k ≠ a := fun e => hd.1 (e ▸ List.mem_map.2 ⟨_, h, rfl⟩)
      have : (k == a) = false := by simpa using hne
      simp only [List.lookup_cons, this]
      exact ih hd.2 h

theorem mem_of_lookup {β : Type} (d : Dict β) {k : String} {v : β} (h : d.lookup k = some v) :
    (k, v) ∈ d := by
  induction d with
  | nil => simp at h
  | cons p d ih =>
    obtain ⟨a, b⟩ := p
    by_cases e : k = a
    · subst e; simp [List.lookup_cons] at h; simp [h]
    · have : (k == a) = false := by simpa using e
      simp only [List.lookup_cons, this] at h
      exact List.mem_cons_of_mem _ (ih h)

theorem keys_set {β : Type} (d : Dict β) (k : String) (v : β) :
    (Dict.set d k v).map Prod.fst = if k ∈ d.map Prod.fst then d.map Prod.fst else d.map Prod.fst ++ [k] := by
  unfold Dict.set
  by_cases h : k ∈ d.map Prod.fst
  · rw [if_pos h, if_pos h, List.map_map]
    apply List.map_congr_left
    intro p _
    simp only [Function.comp]
    split <;> simp_all
  · rw [if_neg h, if_neg h]; simp

theorem lookup_map_ne {β : Type} (d : Dict β) (k k' : String) (v : β) (h : k' ≠ k) :
    List.lookup k' (d.map (fun p => if p.1 = k then (k, v) else p)) = d.lookup k' := by
  induction d with
  | nil => rfl
  | cons p d ih =>
    obtain ⟨a, b⟩ := p
    by_cases e : a = k
    · subst e
      have : (k' == a) = false := by simpa using h
      simp [List.lookup_cons, this, ih]
    · simp only [List.map_cons, if_neg e, List.lookup_cons, ih]

theorem lookup_map_self {β : Type} (d : Dict β) (k : String) (v : β) (h : k ∈ d.map Prod.fst) :
    List.lookup k (d.map (fun p => if p.1 = k then (k, v) else p)) = some v := by
  induction d with
  | nil => simp at h
  | cons p d ih =>
    obtain ⟨a, b⟩ := p
    by_cases e : a = k
    · subst e; simp [List.lookup_cons]
    · have h' : k ∈ d.map Prod.fst := by
        rcases List.mem_cons.1 (by simpa using h : k ∈ a :: d.map Prod.fst) with h | h
        · exact absurd h.symm e
        · exact h
      have : (k == a) = false := by simpa using fun h => e h.symm
      simp only [List.map_cons, if_neg e, List.lookup_cons, this]
      exact ih h'

theorem lookup_set {β : Type} (d : Dict β) (k k' : String) (v : β) :
    (Dict.set d k v).lookup k' = if k' = k then some v else d.lookup k' := by
  unfold Dict.set
  by_cases h : k ∈ d.map Prod.fst
  · rw [if_pos h]
    by_cases e : k' = k
    · subst e; rw [if_pos rfl, lookup_map_self d k' v h]
    · rw [if_neg e, lookup_map_ne d k k' v e]
  · rw [if_neg h]
    by_cases e : k' = k
    · subst e
      rw [if_pos rfl, List.lookup_append, (lookup_eq_none d k').2 h]
      simp [List.lookup_cons]
    · have : (k' == k) = false := by simpa using e
      rw [if_neg e, List.lookup_append]
      simp [List.lookup_cons, this]

theorem set_new {β : Type} (d : Dict β) (k : String) (v : β) (h : k ∉ d.map Prod.fst) :
    Dict.set d k v = d ++ [(k, v)] := by
  unfold Dict.set; rw [if_neg h]

theorem nodup_set {β : Type} (d : Dict β) (k : String) (v : β) (h : (d.map Prod.fst).Nodup) :
    ((Dict.set d k v).map Prod.fst).Nodup := by
  rw [keys_set]
  by_cases hk : k ∈ d.map Prod.fst
  · rwa [if_pos hk]
  · rw [if_neg hk]
    exact List.Nodup.append h (by simp) (by simpa using hk)

theorem nodup_update {β : Type} (d e : Dict β) (h : (d.map Prod.fst).Nodup) :
    ((Dict.update d e).map Prod.fst).Nodup := by
  unfold Dict.update
  induction e generalizing d with
  | nil => exact h
  | cons p e ih => exact ih _ (nodup_set d p.1 p.2 h)

theorem lookup_update {β : Type} (d e : Dict β) (he : (e.map Prod.fst).Nodup) (k : String) :
    (Dict.update d e).lookup k = match e.lookup k with | some v => some v | none => d.lookup k := by
  unfold Dict.update
  induction e generalizing d with
  | nil => rfl
  | cons p e ih =>
    obtain ⟨a, b⟩ := p
    simp only [List.map_cons, List.nodup_cons] at he
    rw [List.foldl_cons, ih _ he.2, lookup_set]
    by_cases h : k = a
    · subst h
      rw [(lookup_eq_none e k).2 he.1]
      simp [List.lookup_cons]
    · have : (k == a) = false := by simpa using h
      simp only [List.lookup_cons, this, if_neg h]

/-! ### Two dictionaries with the same keys -/

/-- The keys are the same, and the values of each key are related. -/
def Rel {β γ : Type} (R : String → β → γ → Prop) (d : Dict β) (d' : Dict γ) : Prop :=
  List.Forall₂ (fun p p' => p'.1 = p.1 ∧ R p.1 p.2 p'.2) d d'

theorem Rel.keys {β γ : Type} {R : String → β → γ → Prop} {d : Dict β} {d' : Dict γ} (h : Rel R d d') :
    d'.map Prod.fst = d.map Prod.fst := by
  unfold Rel at h
  induction h with
  | nil => rfl
  | cons h _ ih => simp [h.1, ih]

theorem Rel.lookup {β γ : Type} {R : String → β → γ → Prop} {d : Dict β} {d' : Dict γ} (h : Rel R d d')
    {k : String} {v : β} (hk : d.lookup k = some v) : ∃ v', d'.lookup k = some v' ∧ R k v v' := by
  unfold Rel at h
  induction h with
  | nil => simp at hk
  | @cons p p' d d' h _ ih =>
    obtain ⟨a, b⟩ := p
    obtain ⟨a', b'⟩ := p'
    obtain ⟨h1, h2⟩ := h
    simp only at h1 h2
    subst h1
    by_cases e : k = a'
    · subst e
      simp [List.lookup_cons] at hk
      subst hk
      exact ⟨b', by simp [List.lookup_cons], h2⟩
    · have : (k == a') = false := by simpa using e
      simp only [List.lookup_cons, this] at hk ⊢
      exact ih hk

/-- A comprehension over a dictionary that keeps the keys. -/
theorem mapM_rel {β γ : Type} (F : String → β → Option γ) (d : Dict β) (d' : Dict γ) :
    d.mapM (fun p => (F p.1 p.2).map (fun v => (p.1, v))) = some d' ↔
      Rel (fun k v v' => F k v = some v') d d' := by
  rw [Common.mapM_some_iff]
  unfold Rel
  have : ∀ p : String × β, ∀ p' : String × γ, ((F p.1 p.2).map (fun v => (p.1, v)) = some p') ↔
      (p'.1 = p.1 ∧ F p.1 p.2 = some p'.2) := by
    intro p p'
    obtain ⟨a, b⟩ := p'
    simp only [Option.map_eq_some_iff, Prod.mk.injEq]
    constructor
    · rintro ⟨v, h1, h2, h3⟩; exact ⟨h2.symm, h3 ▸ h1⟩
    · rintro ⟨h1, h2⟩; exact ⟨b, h2, h1.symm, rfl⟩
  simp only [this]

theorem mapM_isSome {β γ : Type} (F : String → β → Option γ) (d : Dict β)
    (h : ∀ p ∈ d, ∃ v, F p.1 p.2 = some v) :
    ∃ d', d.mapM (fun p => (F p.1 p.2).map (fun v => (p.1, v))) = some d' := by
  induction d with
  | nil => exact ⟨[], rfl⟩
  | cons p d ih =>
    obtain ⟨v, hv⟩ := h p (by simp)
    obtain ⟨d', hd'⟩ := ih (fun q hq => h q (List.mem_cons_of_mem _ hq))
    exact ⟨(p.1, v) :: d', by simp [List.mapM_cons, hv, hd']⟩

/-! ### The compared layers -/

/-- The pairs that `comparePoints` adds. -/
def compared (floatNames : List String) (points : List (String × String)) : List (String × String) :=
  (points.filter (fun p => decide (p.2 ∈ floatNames))).map (fun p => (p.2, p.1))

theorem compared_eq {X T : Type} (fw : Fw) (f q : Net X T) :
    compared f.layers (quantPoints fw q) = comparedLayers fw f q := by
  cases fw with
  | torch =>
    simp only [compared, quantPoints, comparedLayers, List.filter_map, List.map_map]
    rfl
  | keras => rfl

theorem comparePoints_spec (names : List String) (pts : List (String × String)) (d : Dict String)
    (hd : (d.map Prod.fst).Nodup) :
    comparePoints names pts d =
      if ((d ++ compared names pts).map Prod.fst).Nodup then some (d ++ compared names pts) else none := by
  induction pts generalizing d with
  | nil => simp [comparePoints, compared, hd]
  | cons p pts ih =>
    obtain ⟨qn, fn⟩ := p
    unfold comparePoints
    by_cases h : fn ∈ names
    · rw [if_pos h]
      have hc : compared names ((qn, fn) :: pts) = (fn, qn) :: compared names pts := by
        simp [compared, h]
      by_cases h2 : fn ∈ d.map Prod.fst
      · rw [if_pos h2, hc, if_neg]
        intro hn
        rw [List.map_append, List.nodup_append] at hn
        exact hn.2.2 fn h2 fn (by simp) rfl
      · rw [if_neg h2, ih _ (nodup_set d fn qn hd), set_new d fn qn h2, hc]
        simp
    · rw [if_neg h, ih d hd]
      have hc : compared names ((qn, fn) :: pts) = compared names pts := by
        simp [compared, h]
      rw [hc]

/-! ### The activations -/

theorem foldl_calls {T : Type} (names : List String) (cs : List (String × T)) (d : Dict T) (name : String)
    (hn : name ∈ names) :
    (cs.foldl (fun d c => if c.1 ∈ names then Dict.set d c.1 c.2 else d) d).lookup name =
      match (cs.reverse).lookup name with | some t => some t | none => d.lookup name := by
  induction cs generalizing d with
  | nil => rfl
  | cons c cs ih =>
    obtain ⟨a, t⟩ := c
    rw [List.foldl_cons, ih, List.reverse_cons, List.lookup_append]
    cases h : cs.reverse.lookup name with
    | some t' => simp
    | none =>
      simp only [Option.none_or]
      by_cases e : name = a
      · subst e
        rw [if_pos hn, lookup_set]
        simp [List.lookup_cons]
      · have : (name == a) = false := by simpa using e
        simp only [List.lookup_cons, this]
        by_cases ha : a ∈ names
        · rw [if_pos ha, lookup_set, if_neg e]; rfl
        · rw [if_neg ha]; rfl

theorem lookup_reverse {T : Type} (cs : List (String × T)) (name : String) (t : T) :
    cs.reverse.lookup name = some t ↔
      ∃ pre post, cs = pre ++ (name, t) :: post ∧ name ∉ post.map Prod.fst := by
  induction cs with
  | nil => simp
  | cons c cs ih =>
    obtain ⟨a, u⟩ := c
    rw [List.reverse_cons, List.lookup_append]
    cases h : cs.reverse.lookup name with
    | some t' =>
      rw [h] at ih
      simp only [Option.some_or, ih]
      constructor
      · rintro ⟨pre, post, e, hp⟩; exact ⟨(a, u) :: pre, post, by simp [e], hp⟩
      · rintro ⟨pre, post, e, hp⟩
        cases pre with
        | nil =>
          simp only [List.nil_append, List.cons.injEq] at e
          exfalso
          have : name ∉ cs.reverse.map Prod.fst := by
            rw [List.map_reverse, List.mem_reverse, e.2]; exact hp
          rw [(lookup_eq_none _ _).2 this] at h
          simp at h
        | cons b pre =>
          simp only [List.cons_append, List.cons.injEq] at e
          exact ⟨pre, post, e.2, hp⟩
    | none =>
      have hn : name ∉ cs.map Prod.fst := by
        have := (lookup_eq_none _ _).1 h
        rwa [List.map_reverse, List.mem_reverse] at this
      simp only [Option.none_or]
      constructor
      · intro hl
        by_cases e : name = a
        · subst e
          simp [List.lookup_cons] at hl
          subst hl
          exact ⟨[], cs, rfl, hn⟩
        · have : (name == a) = false := by simpa using e
          simp [List.lookup_cons, this] at hl
      · rintro ⟨pre, post, e, hp⟩
        cases pre with
        | nil =>
          simp only [List.nil_append, List.cons.injEq, Prod.mk.injEq] at e
          obtain ⟨⟨rfl, rfl⟩, -⟩ := e
          simp [List.lookup_cons]
        | cons b pre =>
          simp only [List.cons_append, List.cons.injEq] at e
          exact absurd (by rw [e.2]; simp) hn

theorem lastCall_iff {X T : Type} (n : Net X T) (x : X) (name : String) (t : T) :
    LastCall n x name t ↔ (n.calls x).reverse.lookup name = some t :=
  (lookup_reverse _ _ _).symm

theorem lastCall_unique {X T : Type} {n : Net X T} {x : X} {name : String} {t u : T}
    (h : LastCall n x name t) (h' : LastCall n x name u) : t = u := by
  rw [lastCall_iff] at h h'
  rw [h] at h'
  exact Option.some.inj h'

theorem torchActs_layer {X T : Type} (n : Net X T) (names : List String) (x : X) (name : String) (t : T)
    (hn : name ∈ names) (hk : name ≠ outputKey) :
    (torchActs n names x).lookup name = some t ↔ LastCall n x name t := by
  rw [lastCall_iff]
  unfold torchActs
  rw [lookup_set, if_neg hk, foldl_calls _ _ _ _ hn]
  cases (n.calls x).reverse.lookup name <;> simp

theorem torchActs_out {X T : Type} (n : Net X T) (names : List String) (x : X) :
    (torchActs n names x).lookup outputKey = some (n.out x) := by
  unfold torchActs
  rw [lookup_set, if_pos rfl]

theorem kerasOutput_lastCall {X T : Type} (n : Net X T) (x : X) (name : String) (t : T)
    (h : kerasOutput n x name = some t) : LastCall n x name t := by
  unfold kerasOutput at h
  split at h
  · next c hc =>
    rw [Option.some.injEq] at h
    subst h
    have hm : c ∈ (n.calls x).filter (fun c => decide (c.1 = name)) := by rw [hc]; simp
    have hname : c.1 = name := by simpa using (List.mem_filter.1 hm).2
    obtain ⟨pre, post, e⟩ := List.append_of_mem (List.mem_filter.1 hm).1
    refine ⟨pre, post, ?_, ?_⟩
    · rw [e, ← hname]
    · intro hp
      obtain ⟨q, hq, hqn⟩ := List.mem_map.1 hp
      rw [e, List.filter_append, List.filter_cons_of_pos (by simpa using hname)] at hc
      have hlen := congrArg List.length hc
      have hq' : q ∈ post.filter (fun c => decide (c.1 = name)) := List.mem_filter.2 ⟨hq, by simpa using hqn⟩
      have := List.length_pos_of_mem hq'
      rw [List.length_append, List.length_cons, List.length_singleton] at hlen
      omega
  · simp at h

theorem kerasActs_spec {X T : Type} (ls : T → T) (n : Net X T) (names : List String) (x : X) (d : Dict T)
    (h : kerasActs ls n names x = some d) (hne : names ≠ []) :
    d.lookup outputKey = some (n.out x) ∧
      ∀ name ∈ names, name ≠ outputKey → ∃ t, d.lookup name = some t ∧ kerasOutput n x name = some t := by
  unfold kerasActs at h
  rw [Option.map_eq_some_iff] at h
  obtain ⟨d0, h0, rfl⟩ := h
  rw [if_neg hne]
  refine ⟨by rw [lookup_set, if_pos rfl], ?_⟩
  intro name hname hk
  rw [Common.mapM_some_iff] at h0
  have key : ∀ ns : List String, ∀ e : Dict T,
      List.Forall₂ (fun a b => (kerasOutput n x a).map (fun t => (a, t)) = some b) ns e →
      ∀ name ∈ ns, ∃ t, e.lookup name = some t ∧ kerasOutput n x name = some t := by
    intro ns e hf
    induction hf with
    | nil => intro _ h; simp at h
    | @cons a b ns e hab _ ih =>
      intro name hname
      rw [Option.map_eq_some_iff] at hab
      obtain ⟨t, ht, rfl⟩ := hab
      by_cases e1 : name = a
      · subst e1; exact ⟨t, by simp [List.lookup_cons], ht⟩
      · have : (name == a) = false := by simpa using e1
        simp only [List.lookup_cons, this]
        rcases List.mem_cons.1 hname with h | h
        · exact absurd h e1
        · exact ih name h
  obtain ⟨t, h1, h2⟩ := key _ _ h0 name hname
  exact ⟨t, by rw [lookup_set, if_neg hk, h1], h2⟩

/-- What both frameworks extract from one network. -/
theorem extract_spec {X T : Type} (fw : Fw) (ls : T → T) (n : Net X T) (names : List String) (x : X)
    (d : Dict T) (h : extract fw ls n names x = some d) (hne : fw = .keras → names ≠ []) :
    d.lookup outputKey = some (n.out x) ∧
      ∀ name ∈ names, name ≠ outputKey → ∀ t, d.lookup name = some t → LastCall n x name t := by
  cases fw with
  | torch =>
    simp only [extract, Option.some.injEq] at h
    subst h
    exact ⟨torchActs_out n names x, fun name hn hk t ht => (torchActs_layer n names x name t hn hk).1 ht⟩
  | keras =>
    simp only [extract] at h
    obtain ⟨h1, h2⟩ := kerasActs_spec ls n names x d h (hne rfl)
    refine ⟨h1, fun name hn hk t ht => ?_⟩
    obtain ⟨t', h3, h4⟩ := h2 name hn hk
    rw [h3] at ht
    cases ht
    exact kerasOutput_lastCall n x name _ h4

end MCT.XQuant
