/- Lemmas on inserting arguments at their positions, and on sorted edges. -/
import Verif.Torch.Model
import Mathlib.Data.List.Nodup
import Mathlib.Data.List.Range

namespace MCT.Torch

set_option linter.unusedVariables false
set_option linter.unusedSectionVars false
set_option linter.unusedSimpArgs false

variable {V C F K : Type} [DecidableEq K]

/-! ### First occurrences -/

theorem mem_firsts {l : List ℕ} {a : ℕ} : a ∈ firsts l ↔ a ∈ l := by
  induction l with
  | nil => simp [firsts]
  | cons b l ih =>
    simp only [firsts, List.mem_cons, List.mem_filter, ih, decide_eq_true_eq]
    by_cases h : a = b <;> simp [h]

theorem firsts_nodup (l : List ℕ) : (firsts l).Nodup := by
  induction l with
  | nil => simp [firsts]
  | cons b l ih =>
    simp only [firsts, List.nodup_cons, List.mem_filter, decide_eq_true_eq]
    exact ⟨fun h => h.2 rfl, ih.filter _⟩

theorem firsts_of_nodup {l : List ℕ} (h : l.Nodup) : firsts l = l := by
  induction l with
  | nil => rfl
  | cons b l ih =>
    rw [List.nodup_cons] at h
    simp only [firsts, ih h.2]
    rw [List.filter_eq_self.mpr]
    intro c hc
    simp only [decide_eq_true_eq]
    intro hh; exact h.1 (hh ▸ hc)

theorem firsts_replicate (m x : ℕ) : firsts (List.replicate (m + 1) x) = [x] := by
  induction m with
  | zero => rfl
  | succ m ih =>
    rw [List.replicate_succ, firsts, ih]
    simp

/-! ### Insertion -/

theorem insertAt_prefix {A : Type} (P rest : List A) (a : A) : insertAt (P ++ rest) P.length a = P ++ a :: rest := by
  unfold insertAt
  rw [List.take_left', List.drop_left'] <;> rfl

/-- Inserting the selected elements at their positions gives the list back. -/
theorem insertWeights_spec (L : List ℕ) (cv : ℕ → Option V) (val : ℕ → V) (hv : ∀ n ∈ L, ∀ v, cv n = some v → val n = v) :
    insertWeights (L.zipIdx.filterMap (fun e => (cv e.1).map (fun v => (e.2, v))))
      ((L.filter (fun n => (cv n).isNone)).map val) = some (L.map val) := by
  have hsort : ∀ (L : List ℕ) (k : ℕ),
      ((L.zipIdx k).filterMap (fun e => (cv e.1).map (fun v => (e.2, v)))).Pairwise (fun a b => a.1 ≤ b.1) ∧
      ∀ e ∈ (L.zipIdx k).filterMap (fun e => (cv e.1).map (fun v => (e.2, v))), k ≤ e.1 := by
    intro L
    induction L with
    | nil => intro k; simp
    | cons a L ih =>
      intro k
      obtain ⟨h1, h2⟩ := ih (k + 1)
      rw [List.zipIdx_cons]
      cases ha : cv a with
      | none =>
        rw [List.filterMap_cons_none (by simp [ha])]
        exact ⟨h1, fun e he => by have := h2 e he; omega⟩
      | some v =>
        rw [List.filterMap_cons_some (by simp only [ha, Option.map_some]; rfl)]
        refine ⟨List.pairwise_cons.mpr ⟨fun e he => ?_, h1⟩, ?_⟩
        · have := h2 e he; simp only; omega
        · intro e he
          rcases List.mem_cons.mp he with rfl | he
          · simp
          · have := h2 e he; omega
  unfold insertWeights
  rw [List.Pairwise.insertionSort_eq (hsort L 0).1]
  have key : ∀ (L : List ℕ) (P : List V), (∀ n ∈ L, ∀ v, cv n = some v → val n = v) →
      ((L.zipIdx P.length).filterMap (fun e => (cv e.1).map (fun v => (e.2, v)))).foldlM
        (fun acc w => if acc.length < w.1 then none else some (insertAt acc w.1 w.2))
        (P ++ (L.filter (fun n => (cv n).isNone)).map val) = some (P ++ L.map val) := by
    intro L
    induction L with
    | nil => intro P _; simp
    | cons a L ih =>
      intro P hL
      rw [List.zipIdx_cons]
      have hP : ∀ x : V, (P ++ [x]).length = P.length + 1 := by intro x; simp
      cases ha : cv a with
      | none =>
        rw [List.filterMap_cons_none (by simp [ha]), List.filter_cons_of_pos (by simp [ha])]
        have := ih (P ++ [val a]) (fun n hn => hL n (by simp [hn]))
        rw [hP] at this
        simpa using this
      | some v =>
        rw [List.filterMap_cons_some (by simp only [ha, Option.map_some]; rfl),
          List.filter_cons_of_neg (by simp [ha])]
        rw [List.foldlM_cons]
        rw [if_neg (by simp)]
        simp only [insertAt_prefix]
        have := ih (P ++ [v]) (fun n hn => hL n (by simp [hn]))
        rw [hP] at this
        have hva : val a = v := hL a (by simp) v ha
        simpa [hva] using this
  simpa using key L [] hv

/-- The node arguments with their positions from `k`. -/
def nodePos (k : ℕ) : List (Arg C) → List (ℕ × ℕ)
  | [] => []
  | .node i :: l => (i, k) :: nodePos (k + 1) l
  | .lit _ :: l => nodePos (k + 1) l

theorem nodePos_fst (k : ℕ) (args : List (Arg C)) : (nodePos k args).map (·.1) = nodeIds args := by
  induction args generalizing k with
  | nil => rfl
  | cons a l ih => cases a <;> simp [nodePos, nodeIds, ih]

theorem nodeIds_node (l : List ℕ) : nodeIds (C := C) (l.map .node) = l := by
  induction l with
  | nil => rfl
  | cons a l ih => simp [nodeIds]

theorem positions_not_mem (n k : ℕ) (args : List (Arg C)) (h : n ∉ nodeIds args) : positions n k args = [] := by
  induction args generalizing k with
  | nil => rfl
  | cons a l ih =>
    cases a with
    | node i =>
      have h' : n ≠ i ∧ n ∉ nodeIds l := by
        constructor
        · intro hh; exact h (by simp [nodeIds, hh])
        · intro hh; apply h; simp only [nodeIds, List.filterMap_cons]; exact List.mem_cons_of_mem _ hh
      simp only [positions]
      rw [if_neg (fun hh => h'.1 hh.symm)]
      exact ih _ h'.2
    | lit c => exact ih _ h

/-- Positions collected by node, for different nodes. -/
theorem positions_flatMap {B : Type} (g : ℕ → ℕ → List B) (k : ℕ) (args : List (Arg C)) (h : (nodeIds args).Nodup) :
    (nodeIds args).flatMap (fun n => (positions n k args).flatMap (g n)) =
      (nodePos k args).flatMap (fun e => g e.1 e.2) := by
  induction args generalizing k with
  | nil => rfl
  | cons a l ih =>
    cases a with
    | lit c => exact ih (k + 1) h
    | node i =>
      have hc : nodeIds (Arg.node i :: l) = i :: nodeIds l := rfl
      rw [hc] at h ⊢
      rw [List.nodup_cons] at h
      rw [List.flatMap_cons]
      simp only [nodePos, List.flatMap_cons]
      congr 1
      · simp only [positions, if_true]
        rw [positions_not_mem _ _ _ h.1]
        simp
      · rw [← ih (k + 1) h.2]
        apply List.flatMap_congr
        intro n hn
        simp only [positions]
        rw [if_neg (fun hh : i = n => h.1 (hh ▸ hn))]

theorem nodePos_zipIdx (k : ℕ) (l : List ℕ) : nodePos (C := C) k (l.map .node) = l.zipIdx k := by
  induction l generalizing k with
  | nil => rfl
  | cons a l ih => simp [nodePos, ih]

/-! ### Arguments -/

/-- The value of an argument. -/
def argOf (val : ℕ → V) : Arg C → V ⊕ C
  | .node i => .inl (val i)
  | .lit c => .inr c

/-- The step of `mergeInputs`. -/
def mergeStep (acc : List (V ⊕ C) × List (K × (V ⊕ C))) (e : (ℕ ⊕ K) × V) :
    Option (List (V ⊕ C) × List (K × (V ⊕ C))) := match e.1 with
  | .inl i => some (insertAt acc.1 i (.inl e.2), acc.2)
  | .inr k => if acc.2.any (fun d => decide (d.1 = k)) then none else some (acc.1, acc.2 ++ [(k, .inl e.2)])

theorem merge_positional (val : ℕ → V) (kw : List (K × (V ⊕ C))) (args : List (Arg C)) (P : List (V ⊕ C)) :
    ((nodePos P.length args).map (fun e => ((Sum.inl e.2 : ℕ ⊕ K), val e.1))).foldlM mergeStep
      (P ++ (lits args).map .inr, kw) = some (P ++ args.map (argOf val), kw) := by
  induction args generalizing P with
  | nil => simp [nodePos, lits]
  | cons a l ih =>
    have hP : ∀ x : V ⊕ C, (P ++ [x]).length = P.length + 1 := by intro x; simp
    cases a with
    | lit c =>
      have := ih (P ++ [.inr c])
      rw [hP] at this
      have hl : lits (Arg.lit c :: l) = c :: lits l := rfl
      rw [hl]
      simpa [nodePos, argOf] using this
    | node i =>
      have := ih (P ++ [.inl (val i)])
      rw [hP] at this
      have hl : lits (Arg.node i :: l) = lits l := rfl
      rw [hl]
      simp only [nodePos, List.map_cons, List.foldlM_cons]
      have hs : mergeStep (P ++ (lits l).map .inr, kw) ((Sum.inl P.length : ℕ ⊕ K), val i) =
          some (P ++ .inl (val i) :: (lits l).map .inr, kw) := by
        simp only [mergeStep, insertAt_prefix]
      rw [hs]
      simpa [argOf] using this

/-- Keyword arguments that are tensors. -/
def nodeKw (val : ℕ → V) (kw : List (K × Arg C)) : List (K × V) := kw.filterMap (fun e => match e.2 with
  | .node i => some (e.1, val i)
  | .lit _ => none)

theorem merge_keyword (kv : List (K × V)) (args : List (V ⊕ C)) (kw : List (K × (V ⊕ C)))
    (h : (kw.map (·.1) ++ kv.map (·.1)).Nodup) :
    (kv.map (fun e => ((Sum.inr e.1 : ℕ ⊕ K), e.2))).foldlM mergeStep (args, kw) =
      some (args, kw ++ kv.map (fun e => (e.1, .inl e.2))) := by
  induction kv generalizing kw with
  | nil => simp
  | cons e kv ih =>
    simp only [List.map_cons, List.foldlM_cons]
    have hs : mergeStep (args, kw) ((Sum.inr e.1 : ℕ ⊕ K), e.2) = some (args, kw ++ [(e.1, .inl e.2)]) := by
      simp only [mergeStep]
      rw [if_neg]
      simp only [List.any_eq_true, decide_eq_true_eq, not_exists, not_and]
      intro d hd hh
      rw [List.nodup_append] at h
      exact h.2.2 _ (List.mem_map_of_mem hd) _ (by simp) hh
    rw [hs]
    have := ih (kw ++ [(e.1, .inl e.2)]) (by simpa using h)
    simpa using this

theorem lookK_perm {A : Type} {d1 d2 : List (K × A)} (hp : d1.Perm d2) (h : (d1.map (·.1)).Nodup) :
    lookK d1 = lookK d2 := by
  funext k
  have hmem : ∀ (d : List (K × A)), (d.map (·.1)).Nodup → ∀ v, lookK d k = some v ↔ (k, v) ∈ d := by
    intro d hd v
    unfold lookK
    induction d with
    | nil => simp
    | cons e d ih =>
      rw [List.map_cons, List.nodup_cons] at hd
      rw [List.find?_cons]
      by_cases hk : e.1 = k
      · simp only [hk, decide_true, Option.map_some, Option.some.injEq, List.mem_cons]
        constructor
        · rintro rfl; left; rw [← hk]
        · rintro (h | h)
          · rw [← h]
          · exact absurd (List.mem_map_of_mem (f := (·.1)) h) (by simpa [hk] using hd.1)
      · simp only [hk, decide_false]
        rw [ih hd.2, List.mem_cons]
        constructor
        · exact fun h => Or.inr h
        · rintro (h | h)
          · exact absurd (by rw [← h]) hk
          · exact h
  have h2 : (d2.map (·.1)).Nodup := (hp.map _).nodup_iff.mp h
  ext v
  rw [hmem d1 h, hmem d2 h2, hp.mem_iff]

theorem kw_split (val : ℕ → V) (kw : List (K × Arg C)) :
    List.Perm ((litKwargs kw).map (fun e : K × C => (e.1, (Sum.inr e.2 : V ⊕ C))) ++
        (nodeKw val kw).map (fun e : K × V => (e.1, (Sum.inl e.2 : V ⊕ C))))
      (kw.map (fun e : K × Arg C => (e.1, argOf val e.2))) := by
  induction kw with
  | nil => exact List.Perm.refl _
  | cons e kw ih =>
    obtain ⟨k, a⟩ := e
    cases a with
    | lit c =>
      have h1 : litKwargs ((k, Arg.lit c) :: kw) = (k, c) :: litKwargs kw := rfl
      have h2 : nodeKw val ((k, Arg.lit c) :: kw) = nodeKw val kw := rfl
      rw [h1, h2]
      exact List.Perm.cons _ ih
    | node i =>
      have h1 : litKwargs ((k, Arg.node i) :: kw) = litKwargs (C := C) kw := rfl
      have h2 : nodeKw val ((k, Arg.node i) :: kw) = (k, val i) :: nodeKw val kw := rfl
      rw [h1, h2]
      exact (List.perm_middle).trans (List.Perm.cons _ ih)

end MCT.Torch
