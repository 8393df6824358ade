/- What a user of the Hessian service relies on. -/
import Verif.Hessian.Lemmas

namespace MCT.Hessian

set_option linter.unusedVariables false
set_option linter.unusedSectionVars false

variable {N S V : Type} [DecidableEq N]

/-! ### Specification -/

namespace HessianSpec

/-- The rows computed for a query according to the record of the calculations, in their order. -/
def recorded (score : ℕ → Query N → List S → List V) (log : List (Query N × ℕ × List S)) (q : Query N) : List V :=
  log.flatMap (fun e => if e.1 = q then score e.2.1 q e.2.2 else [])

end HessianSpec

open HessianSpec

variable (score : ℕ → Query N → List S → List V)

/-! ### The cache is the record of the calculations -/

/-- Invariant of the cache. -/
def Inv (st : St N S V) : Prop :=
  ∀ q, (st.cache q).getD [] = recorded score st.log q ∧ ((st.cache q).isSome = true ↔ ∃ e ∈ st.log, e.1 = q)

theorem recorded_append (l1 l2 : List (Query N × ℕ × List S)) (q : Query N) :
    recorded score (l1 ++ l2) q = recorded score l1 q ++ recorded score l2 q := by
  simp [recorded]

theorem recorded_names (m : Mode) (g : Gran) (t : ℕ) (b : List S) (q : Query N) (l : List N) (hd : l.Nodup) :
    recorded score (l.map (fun x => ((⟨m, g, x⟩ : Query N), t, b))) q =
      if Asked m g l q then score t q b else [] := by
  unfold Asked
  induction l with
  | nil => simp [recorded]
  | cons a l ih =>
    have hd' := List.nodup_cons.mp hd
    have e : recorded score ((a :: l).map (fun x => ((⟨m, g, x⟩ : Query N), t, b))) q =
        (if (⟨m, g, a⟩ : Query N) = q then score t q b else []) ++
          recorded score (l.map (fun x => ((⟨m, g, x⟩ : Query N), t, b))) q := by
      simp [recorded]
    rw [e, ih hd'.2]
    obtain ⟨qm, qg, qn⟩ := q
    simp only [Query.mk.injEq, List.mem_cons]
    by_cases h1 : m = qm
    · by_cases h2 : g = qg
      · by_cases h3 : a = qn
        · subst h1; subst h2; subst h3
          simp [hd'.1]
        · have h3' : ¬ qn = a := fun h => h3 h.symm
          subst h1; subst h2
          simp [h3, h3']
      · have h2' : ¬ qg = g := fun h => h2 h.symm
        simp [h2, h2']
    · have h1' : ¬ qm = m := fun h => h1 h.symm
      simp [h1, h1']

theorem advance_log (m : Mode) (g : Gran) (names : List N) (bs : List (List S)) (st : St N S V) :
    ∃ new, (advance score m g names bs st).log = st.log ++ new ∧
      (∀ q, recorded score new q = if Asked m g names q then rowsFrom score st.tick q bs else []) ∧
      (∀ q, (∃ e ∈ new, e.1 = q) ↔ Asked m g names q ∧ bs ≠ []) := by
  induction bs generalizing st with
  | nil => exact ⟨[], by simp [advance], by intro q; simp [recorded, rowsFrom], by intro q; simp⟩
  | cons b bs ih =>
    obtain ⟨new, h1, h2, h3⟩ := ih (stepBatch score st m g names b)
    have hask : ∀ q, Asked m g names.dedup q ↔ Asked m g names q := by intro q; unfold Asked; simp
    refine ⟨names.dedup.map (fun x => (⟨m, g, x⟩, st.tick, b)) ++ new, ?_, ?_, ?_⟩
    · simp only [advance, List.foldl_cons] at h1 ⊢
      rw [h1]; simp [stepBatch]
    · intro q
      rw [recorded_append, recorded_names score m g _ _ _ _ names.nodup_dedup, h2]
      have : (stepBatch score st m g names b).tick = st.tick + 1 := rfl
      rw [this]
      simp only [hask]
      split_ifs <;> simp [rowsFrom]
    · intro q
      constructor
      · rintro ⟨e, he, rfl⟩
        rcases List.mem_append.mp he with he | he
        · obtain ⟨x, hx, rfl⟩ := List.mem_map.mp he
          exact ⟨⟨rfl, rfl, List.mem_dedup.mp hx⟩, by simp⟩
        · exact ⟨((h3 _).mp ⟨e, he, rfl⟩).1, by simp⟩
      · rintro ⟨⟨h1, h2, h3⟩, _⟩
        refine ⟨(q, st.tick, b), List.mem_append_left _ (List.mem_map.mpr ⟨q.node, List.mem_dedup.mpr h3, ?_⟩), rfl⟩
        obtain ⟨qm, qg, qn⟩ := q
        simp only at h1 h2
        rw [h1, h2]

theorem advance_inv {m : Mode} {g : Gran} {names : List N} {bs : List (List S)} {st : St N S V}
    (h : Inv score st) : Inv score (advance score m g names bs st) := by
  intro q
  obtain ⟨new, h1, h2, h3⟩ := advance_log score m g names bs st
  rw [advance_getD, advance_isSome, h1, recorded_append, h2, (h q).1, (h q).2]
  refine ⟨rfl, ?_⟩
  constructor
  · rintro (⟨e, he, rfl⟩ | hq)
    · exact ⟨e, List.mem_append_left _ he, rfl⟩
    · obtain ⟨e, he, h⟩ := (h3 q).mpr hq
      exact ⟨e, List.mem_append_right _ he, h⟩
  · rintro ⟨e, he, h⟩
    rcases List.mem_append.mp he with he | he
    · exact Or.inl ⟨e, he, h⟩
    · exact Or.inr ((h3 q).mp ⟨e, he, h⟩)

/-! ### Each call advances the state -/

theorem computeLoop_advance (m : Mode) (g : Gran) (names : List N) (n : Option ℕ) (byCache : Bool)
    (bs : List (List S)) (st : St N S V) (c : ℕ) (acc : List (N → List V)) :
    ∃ bs', (computeLoop score m g names n byCache bs st c acc).1 = advance score m g names bs' st := by
  by_cases hn : names = []
  · subst hn
    cases bs with
    | nil => exact ⟨[], rfl⟩
    | cons b bs => exact ⟨[b], rfl⟩
  · obtain ⟨k, c', acc', _, h, _⟩ := computeLoop_spec score m g names hn n byCache bs st c acc
    exact ⟨bs.take k, by rw [h]⟩

theorem compute_advance (m : Mode) (g : Gran) (names : List N) (n : Option ℕ) (byCache : Bool)
    (loader : Option (List (List S))) (st : St N S V) :
    ∃ bs', (compute score m g names n byCache loader st).1 = advance score m g names bs' st := by
  cases loader with
  | none => exact ⟨[], rfl⟩
  | some bs =>
    obtain ⟨bs', h⟩ := computeLoop_advance score m g names n byCache bs st 0 []
    refine ⟨bs', ?_⟩
    unfold compute
    simp only
    rcases hr : computeLoop score m g names n byCache bs st 0 [] with ⟨st', r⟩
    rw [hr] at h
    simp only at h
    cases r with
    | none => exact h
    | some p =>
      obtain ⟨c, acc⟩ := p
      simp only
      split_ifs <;> exact h

theorem fetchWithCompute_advance (m : Mode) (g : Gran) (names : List N) (n : ℕ)
    (loader : Option (List (List S))) (st : St N S V) :
    ∃ names' bs', (fetchWithCompute score m g names n loader st).1 = advance score m g names' bs' st := by
  unfold fetchWithCompute
  split_ifs with h1 h2
  · exact ⟨[], [], rfl⟩
  · exact ⟨[], [], rfl⟩
  · generalize todo st m g names n = names'
    obtain ⟨bs', h⟩ := compute_advance score m g names' (some n) true loader st
    refine ⟨names', bs', ?_⟩
    rcases hr : compute score m g names' (some n) true loader st with ⟨st', r⟩
    rw [hr] at h
    simp only at h
    cases r with
    | none => exact h
    | some p => simp only; split_ifs <;> exact h

theorem fetch_advance (nodes : List (HNode N)) (force : Bool) (r : Req N S) (st : St N S V) :
    ∃ names' bs', (fetch score nodes force r st).1 = advance score r.mode r.gran names' bs' st := by
  unfold fetch
  split_ifs with h1 h2
  · exact ⟨[], [], rfl⟩
  · exact ⟨[], [], rfl⟩
  · cases r.targets.mapM (primary nodes) with
    | none => exact ⟨[], [], rfl⟩
    | some prims =>
      simp only
      have : ∃ names' bs', (answer score r.mode r.gran (prims.map (·.name)) force r.n r.loader st).1 =
          advance score r.mode r.gran names' bs' st := by
        unfold answer
        split_ifs
        · obtain ⟨bs', h⟩ := compute_advance score r.mode r.gran (prims.map (·.name)) r.n false r.loader st
          exact ⟨_, bs', h⟩
        · exact fetchWithCompute_advance score _ _ _ _ _ _
      obtain ⟨names', bs', h⟩ := this
      refine ⟨names', bs', ?_⟩
      rw [← h]
      generalize answer score r.mode r.gran (prims.map (·.name)) force r.n r.loader st = a
      obtain ⟨st', r'⟩ := a
      cases r' <;> rfl

theorem stepOp_inv (nodes : List (HNode N)) (st : St N S V) (o : Op N S) (h : Inv score st) :
    Inv score (stepOp score nodes st o) := by
  cases o with
  | clear => intro q; simp [stepOp, recorded]
  | fetch force r =>
    obtain ⟨names', bs', e⟩ := fetch_advance score nodes force r st
    simp only [stepOp]
    rw [e]
    exact advance_inv score h

theorem inv_empty : Inv score (St.empty : St N S V) := by intro q; simp [St.empty, recorded]

theorem run_inv (nodes : List (HNode N)) (ops : List (Op N S)) (st : St N S V) (h : Inv score st) :
    Inv score (run score nodes st ops) := by
  induction ops generalizing st with
  | nil => exact h
  | cons o ops ih => exact ih _ (stepOp_inv score nodes st o h)

/-- Without a call of `clear_cache` the record only grows. -/
theorem run_log (nodes : List (HNode N)) (ops : List (Op N S)) (st : St N S V)
    (hc : ∀ o ∈ ops, ∃ force r, o = .fetch force r) :
    ∃ new, (run score nodes st ops).log = st.log ++ new := by
  induction ops generalizing st with
  | nil => exact ⟨[], by simp [run]⟩
  | cons o ops ih =>
    obtain ⟨force, r, rfl⟩ := hc o (by simp)
    obtain ⟨new, h⟩ := ih (stepOp score nodes st (.fetch force r)) (fun o ho => hc o (by simp [ho]))
    obtain ⟨names', bs', e⟩ := fetch_advance score nodes force r st
    obtain ⟨new', h1, _⟩ := advance_log score r.mode r.gran names' bs' st
    refine ⟨new' ++ new, ?_⟩
    simp only [run, List.foldl_cons] at h ⊢
    rw [h]
    simp only [stepOp, e, h1, List.append_assoc]

/-! ### Fetching -/

theorem mem_missing {st : St N S V} (hi : Inv score st) (m : Mode) (g : Gran) (names : List N) (n : ℕ) (x : N) :
    x ∈ missing st m g names n ↔ x ∈ names ∧ ((¬ ∃ e ∈ st.log, e.1 = ⟨m, g, x⟩) ∨
      (recorded score st.log ⟨m, g, x⟩).length < n) := by
  unfold missing
  rw [List.mem_filter]
  refine and_congr_right (fun _ => ?_)
  have h1 := (hi ⟨m, g, x⟩).1
  have h2 := (hi ⟨m, g, x⟩).2
  rw [← h1, ← h2]
  cases st.cache ⟨m, g, x⟩ with
  | none => simp
  | some rows => simp

theorem cached_of_not_missing {st : St N S V} (hi : Inv score st) (m : Mode) (g : Gran) (names : List N) (n : ℕ)
    (h : (missing st m g names n).isEmpty = true) :
    cached st m g names n = names.map (fun x => (x, (recorded score st.log ⟨m, g, x⟩).take n)) ∧
      ∀ x ∈ names, n ≤ (recorded score st.log ⟨m, g, x⟩).length ∧ ∃ e ∈ st.log, e.1 = ⟨m, g, x⟩ := by
  rw [List.isEmpty_iff] at h
  have hx : ∀ x ∈ names, n ≤ (recorded score st.log ⟨m, g, x⟩).length ∧ ∃ e ∈ st.log, e.1 = ⟨m, g, x⟩ := by
    intro x hx
    have : x ∉ missing st m g names n := by rw [h]; simp
    rw [mem_missing score hi] at this
    by_contra hcon
    apply this
    refine ⟨hx, ?_⟩
    by_cases he : ∃ e ∈ st.log, e.1 = ⟨m, g, x⟩
    · right
      by_contra h'
      exact hcon ⟨by omega, he⟩
    · exact Or.inl he
  refine ⟨?_, hx⟩
  unfold cached
  clear h
  induction names with
  | nil => rfl
  | cons a l ih =>
    have ha := hx a (by simp)
    have h1 := (hi ⟨m, g, a⟩).1
    have h2 := (hi ⟨m, g, a⟩).2.mpr ha.2
    obtain ⟨rows, hr⟩ := Option.isSome_iff_exists.mp h2
    rw [List.filterMap_cons, hr]
    simp only [Option.map_some, List.map_cons]
    rw [ih (fun x hx' => hx x (by simp [hx']))]
    rw [hr] at h1
    simp only [Option.getD_some] at h1
    rw [h1]

/-- A request that succeeds answers with the first `n` rows of the record after it. -/
theorem fetchWithCompute_some {st : St N S V} (hi : Inv score st) (m : Mode) (g : Gran) (names : List N) (n : ℕ)
    (loader : Option (List (List S))) (st' : St N S V) (res : List (N × List V))
    (h : fetchWithCompute score m g names n loader st = (st', some res)) :
    Inv score st' ∧ res = names.map (fun x => (x, (recorded score st'.log ⟨m, g, x⟩).take n)) ∧
      ∀ x ∈ names, n ≤ (recorded score st'.log ⟨m, g, x⟩).length ∧ ∃ e ∈ st'.log, e.1 = ⟨m, g, x⟩ := by
  have hi' : Inv score st' := by
    obtain ⟨names', bs', e⟩ := fetchWithCompute_advance score m g names n loader st
    rw [h] at e
    simp only at e
    rw [e]
    exact advance_inv score hi
  refine ⟨hi', ?_⟩
  unfold fetchWithCompute at h
  split_ifs at h with h1 h2
  · simp only [Prod.mk.injEq, Option.some.injEq] at h
    obtain ⟨rfl, rfl⟩ := h
    exact cached_of_not_missing score hi m g names n h1
  · simp at h
  · generalize todo st m g names n = names' at h
    rcases hr : compute score m g names' (some n) true loader st with ⟨st1, r⟩
    rw [hr] at h
    cases r with
    | none => simp at h
    | some p =>
      simp only at h
      split_ifs at h with h3
      · simp only [Prod.mk.injEq, Option.some.injEq] at h
        obtain ⟨rfl, rfl⟩ := h
        exact cached_of_not_missing score hi' m g names n h3
      · simp at h

theorem look_map (names : List N) (f : N → List V) (x : N) (hx : x ∈ names) :
    look (names.map (fun y => (y, f y))) x = some (f x) := by
  unfold look
  induction names with
  | nil => simp at hx
  | cons a l ih =>
    by_cases h : a = x
    · simp [h]
    · rcases List.mem_cons.mp hx with e | hx
      · exact absurd e.symm h
      · rw [List.map_cons, List.find?_cons_of_neg (by simpa using h)]
        exact ih hx

/-- The answer under the original names. -/
theorem restore (nodes : List (HNode N)) (targets prims : List (HNode N))
    (hp : targets.mapM (primary nodes) = some prims) (f : N → List V) :
    restoreNames targets prims ((prims.map (·.name)).map (fun y => (y, f y))) =
      some ((List.zip targets prims).map (fun p => (p.1.name, f p.2.name))) ∧
    List.Forall₂ (fun x p => primary nodes x = some p) targets prims := by
  constructor
  · have key : ∀ l : List (HNode N × HNode N), (∀ p ∈ l, p.2 ∈ prims) →
        l.mapM (fun p => (look ((prims.map (·.name)).map (fun y => (y, f y))) p.2.name).map
          (fun rows => (p.1.name, rows))) = some (l.map (fun p => (p.1.name, f p.2.name))) := by
      intro l hl
      induction l with
      | nil => rfl
      | cons a l ih =>
        rw [List.mapM_cons, look_map _ _ _ (List.mem_map_of_mem (hl a (by simp))),
          ih (fun p hp => hl p (by simp [hp]))]
        rfl
    exact key _ (fun p hp => (List.of_mem_zip hp).2)
  · induction targets generalizing prims with
    | nil => simp at hp; subst hp; exact List.Forall₂.nil
    | cons a l ih =>
      rw [List.mapM_cons] at hp
      cases ha : primary nodes a with
      | none => rw [ha] at hp; simp at hp
      | some pa =>
        rw [ha] at hp
        cases hl : l.mapM (primary nodes) with
        | none => rw [hl] at hp; simp at hp
        | some pl =>
          rw [hl] at hp
          simp at hp
          subst hp
          exact List.Forall₂.cons ha (ih pl hl)

theorem forall₂_zip {A B C : Type} {R : A → B → Prop} {as : List A} {bs : List B} (h : List.Forall₂ R as bs)
    (f : A × B → C) : List.Forall₂ (fun a c => ∃ b, R a b ∧ b ∈ bs ∧ c = f (a, b)) as ((List.zip as bs).map f) := by
  induction h with
  | nil => exact List.Forall₂.nil
  | cons hab _ ih =>
    refine List.Forall₂.cons ⟨_, hab, by simp, rfl⟩ (ih.imp ?_)
    rintro a c ⟨b, h1, h2, h3⟩
    exact ⟨b, h1, by simp [h2], h3⟩

end MCT.Hessian
