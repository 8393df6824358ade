/- Facts about the loop over the data loader. -/
import Verif.Hessian.Model
import Mathlib.Data.Nat.Basic
import Mathlib.Order.MinMax
import Mathlib.Data.List.Forall2

namespace MCT.Hessian

set_option linter.unusedVariables false
set_option linter.unusedSectionVars false

variable {N S V : Type} [DecidableEq N] (score : ℕ → Query N → List S → List V)

/-- The rows computed for a query over consecutive batches, the first at counter `t`. -/
def rowsFrom (t : ℕ) (q : Query N) : List (List S) → List V
  | [] => []
  | b :: bs => score t q b ++ rowsFrom (t + 1) q bs

/-- The state after some batches. -/
def advance (m : Mode) (g : Gran) (names : List N) (bs : List (List S)) (st : St N S V) : St N S V :=
  bs.foldl (fun st b => stepBatch score st m g names b) st

/-- Queries of the given kind for the given layers. -/
def Asked (m : Mode) (g : Gran) (names : List N) (q : Query N) : Prop := q.mode = m ∧ q.gran = g ∧ q.node ∈ names

instance (m : Mode) (g : Gran) (names : List N) (q : Query N) : Decidable (Asked m g names q) := by
  unfold Asked; infer_instance

theorem advance_tick (m : Mode) (g : Gran) (names : List N) (bs : List (List S)) (st : St N S V) :
    (advance score m g names bs st).tick = st.tick + bs.length := by
  induction bs generalizing st with
  | nil => rfl
  | cons b bs ih =>
    simp only [advance, List.foldl_cons] at ih ⊢
    rw [ih]; simp only [stepBatch, List.length_cons]; omega

theorem stepBatch_getD (st : St N S V) (m : Mode) (g : Gran) (names : List N) (b : List S) (q : Query N) :
    ((stepBatch score st m g names b).cache q).getD [] =
      (st.cache q).getD [] ++ (if Asked m g names q then score st.tick q b else []) := by
  by_cases h : Asked m g names q
  · have h' := h
    unfold Asked at h'
    simp only [stepBatch, if_pos h', if_pos h]
    cases st.cache q <;> simp
  · have h' := h
    unfold Asked at h'
    simp only [stepBatch, if_neg h', if_neg h]; simp

theorem advance_getD (m : Mode) (g : Gran) (names : List N) (bs : List (List S)) (st : St N S V) (q : Query N) :
    ((advance score m g names bs st).cache q).getD [] =
      (st.cache q).getD [] ++ (if Asked m g names q then rowsFrom score st.tick q bs else []) := by
  induction bs generalizing st with
  | nil => simp [advance, rowsFrom]
  | cons b bs ih =>
    simp only [advance, List.foldl_cons] at ih ⊢
    rw [ih, stepBatch_getD]
    have : (stepBatch score st m g names b).tick = st.tick + 1 := rfl
    rw [this]
    split_ifs <;> simp [rowsFrom]

theorem advance_isSome (m : Mode) (g : Gran) (names : List N) (bs : List (List S)) (st : St N S V) (q : Query N) :
    ((advance score m g names bs st).cache q).isSome = true ↔
      (st.cache q).isSome = true ∨ (Asked m g names q ∧ bs ≠ []) := by
  induction bs generalizing st with
  | nil => simp [advance]
  | cons b bs ih =>
    simp only [advance, List.foldl_cons] at ih ⊢
    rw [ih]
    unfold stepBatch Asked
    simp only
    split_ifs with h
    · simp [h]
    · simp [h]

theorem count_eq (st : St N S V) (q : Query N) : count st q = ((st.cache q).getD []).length := by
  unfold count; cases st.cache q <;> rfl

theorem rowsFrom_length (hs : ∀ t q b, (score t q b).length = b.length) (t : ℕ) (q : Query N)
    (bs : List (List S)) : (rowsFrom score t q bs).length = bs.flatten.length := by
  induction bs generalizing t with
  | nil => rfl
  | cons b bs ih => simp only [rowsFrom, List.length_append, hs, ih, List.flatten_cons]

theorem rowsFrom_append (t : ℕ) (q : Query N) (as bs : List (List S)) :
    rowsFrom score t q (as ++ bs) = rowsFrom score t q as ++ rowsFrom score (t + as.length) q bs := by
  induction as generalizing t with
  | nil => simp [rowsFrom]
  | cons a as ih =>
    simp only [List.cons_append, rowsFrom, ih, List.append_assoc, List.length_cons]
    congr 3; omega

/-- The least count is a lower bound that is reached. -/
theorem minCount_spec (st : St N S V) (m : Mode) (g : Gran) (names : List N) (c : ℕ)
    (h : minCount st m g names = some c) :
    (∀ x ∈ names, c ≤ count st ⟨m, g, x⟩) ∧ ∃ x ∈ names, c = count st ⟨m, g, x⟩ := by
  induction names generalizing c with
  | nil => simp [minCount] at h
  | cons x xs ih =>
    cases xs with
    | nil =>
      simp only [minCount, Option.some.injEq] at h
      subst h; simp
    | cons y ys =>
      simp only [minCount, Option.map_eq_some_iff] at h
      obtain ⟨c', h', rfl⟩ := h
      obtain ⟨h1, z, hz, h2⟩ := ih c' h'
      refine ⟨?_, ?_⟩
      · intro w hw
        rcases List.mem_cons.mp hw with rfl | hw
        · exact min_le_left _ _
        · exact (min_le_right _ _).trans (h1 w hw)
      · rcases min_choice (count st ⟨m, g, x⟩) c' with e | e
        · exact ⟨x, by simp, e⟩
        · exact ⟨z, by simp [List.mem_cons] at hz ⊢; right; exact hz, by rw [e]; exact h2⟩

theorem minCount_isSome (st : St N S V) (m : Mode) (g : Gran) (names : List N) (h : names ≠ []) :
    ∃ c, minCount st m g names = some c := by
  induction names with
  | nil => exact absurd rfl h
  | cons x xs ih =>
    cases xs with
    | nil => exact ⟨_, rfl⟩
    | cons y ys =>
      obtain ⟨c, hc⟩ := ih (by simp)
      exact ⟨_, by simp only [minCount] at hc ⊢; rw [hc]; rfl⟩

/-- All that the loop does, for a non-empty list of layers: it consumes the shortest prefix of the data loader
that suffices, and collects the rows of this prefix. -/
theorem computeLoop_spec (m : Mode) (g : Gran) (names : List N) (hn : names ≠ []) (n : Option ℕ) (byCache : Bool)
    (bs : List (List S)) (st : St N S V) (c : ℕ) (acc : List (N → List V)) :
    ∃ k c' acc', k ≤ bs.length ∧
      computeLoop score m g names n byCache bs st c acc =
        (advance score m g names (bs.take k) st, some (c', acc ++ acc')) ∧
      (∀ x, acc'.flatMap (fun h => h x) = rowsFrom score st.tick ⟨m, g, x⟩ (bs.take k)) ∧
      acc'.length = k ∧
      (c' = if byCache then (if k = 0 then c else
          (minCount (advance score m g names (bs.take k) st) m g names).getD 0)
        else c + (bs.take k).flatten.length) ∧
      (k < bs.length → n.getD 0 ≠ 0 ∧ n.getD 0 ≤ c') ∧
      (∀ j, 0 < j → j < k → n.getD 0 = 0 ∨
        (if byCache then (minCount (advance score m g names (bs.take j) st) m g names).getD 0
          else c + (bs.take j).flatten.length) < n.getD 0) := by
  induction bs generalizing st c acc with
  | nil =>
    refine ⟨0, c, [], le_refl _, ?_, ?_, rfl, ?_, ?_, ?_⟩
    · simp [computeLoop, advance]
    · intro x; simp [rowsFrom]
    · simp
    · intro h; simp at h
    · intro j h1 h2; omega
  | cons b bs ih =>
    obtain ⟨mc, hmc⟩ := minCount_isSome (stepBatch score st m g names b) m g names hn
    set f : N → List V := fun x => score st.tick ⟨m, g, x⟩ b with hf
    by_cases hstop : n.getD 0 ≠ 0 ∧ n.getD 0 ≤ (if byCache then mc else c + b.length)
    · refine ⟨1, (if byCache then mc else c + b.length), [f], by simp, ?_, ?_, rfl, ?_, fun _ => hstop, ?_⟩
      · unfold computeLoop
        simp only [hmc]
        rw [if_pos hstop]
        simp [advance, hf]
      · intro x; simp [rowsFrom, hf]
      · cases byCache <;> simp [advance, hmc]
      · intro j h1 h2; omega
    · obtain ⟨k, c', acc', hk, h1, h2, h3, h4, h5, h6⟩ := ih (stepBatch score st m g names b)
        (if byCache then mc else c + b.length) (acc ++ [f])
      refine ⟨k + 1, c', f :: acc', by simpa using hk, ?_, ?_, by simp [h3], ?_, ?_, ?_⟩
      · unfold computeLoop
        simp only [hmc]
        rw [if_neg hstop]
        rw [h1]
        simp [advance]
      · intro x
        simp only [List.flatMap_cons, h2, List.take_succ_cons, rowsFrom, hf]
        rfl
      · rw [h4]
        cases byCache with
        | true =>
          simp only [if_true]
          by_cases hk0 : k = 0
          · subst hk0; simp [advance, hmc]
          · rw [if_neg hk0, if_neg (by omega)]; rfl
        | false =>
          simp only [Bool.false_eq_true, if_false, List.take_succ_cons, List.flatten_cons, List.length_append]
          omega
      · intro h; exact h5 (by simpa using h)
      · intro j hj1 hj2
        obtain ⟨i, rfl⟩ : ∃ i, j = i + 1 := ⟨j - 1, by omega⟩
        by_cases hi : i = 0
        · subst hi
          have e1 : (minCount (advance score m g names (List.take (0 + 1) (b :: bs)) st) m g names) = some mc := by
            simp [advance, hmc]
          rw [e1]
          by_cases h0 : n.getD 0 = 0
          · exact Or.inl h0
          · right
            by_contra hlt
            refine hstop ⟨h0, ?_⟩
            cases byCache <;> simp at hlt ⊢ <;> exact hlt
        · have := h6 i (by omega) (by omega)
          cases byCache with
          | true => exact this
          | false =>
            simp only [Bool.false_eq_true, if_false, List.take_succ_cons, List.flatten_cons, List.length_append] at this ⊢
            omega

end MCT.Hessian
