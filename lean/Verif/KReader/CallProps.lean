/- C112: a functional call is rebuilt with the same arguments. -/
import Verif.KReader.Call
import Mathlib.Data.List.Sort
import Mathlib.Data.List.Nodup

namespace MCT.KReader

/-! ### Dictionaries -/

section Dict
variable {K A : Type} [DecidableEq K]

theorem dget_nil (k : K) : dget k ([] : List (K × A)) = none := rfl

theorem dget_cons (k : K) (e : K × A) (d : List (K × A)) : dget k (e :: d) = if e.1 = k then some e.2 else dget k d := by
  unfold dget
  rw [List.find?_cons]
  by_cases h : e.1 = k <;> simp [h]

theorem dget_append (k : K) (d d' : List (K × A)) : dget k (d ++ d') = (dget k d).or (dget k d') := by
  induction d with
  | nil => rfl
  | cons e d ih =>
    rw [List.cons_append, dget_cons, dget_cons, ih]
    by_cases h : e.1 = k <;> simp [h]

theorem dget_filter_ne (k k' : K) (d : List (K × A)) :
    dget k (d.filter fun e => decide (e.1 ≠ k')) = if k = k' then none else dget k d := by
  induction d with
  | nil => simp [dget_nil]
  | cons e d ih =>
    by_cases h : e.1 = k'
    · rw [List.filter_cons_of_neg (by simpa using h), ih, dget_cons]
      by_cases hk : k = k'
      · simp [hk]
      · have : e.1 ≠ k := fun h' => hk (h'.symm.trans h)
        simp [hk, this]
    · rw [List.filter_cons_of_pos (by simpa using h), dget_cons, dget_cons, ih]
      by_cases hk : k = k'
      · have : e.1 ≠ k := fun h' => h (h'.trans hk)
        simp [hk, h]
      · simp [hk]

theorem dget_dset (k k' : K) (a : A) (d : List (K × A)) : dget k (dset k' a d) = if k = k' then some a else dget k d := by
  unfold dset
  rw [dget_append, dget_filter_ne, dget_cons, dget_nil]
  by_cases h : k = k'
  · simp [h]
  · have : k' ≠ k := fun h' => h h'.symm
    simp [h, this]

theorem dget_isSome {k : K} {d : List (K × A)} : (dget k d).isSome = true ↔ k ∈ d.map (·.1) := by
  induction d with
  | nil => simp [dget_nil]
  | cons e d ih =>
    rw [dget_cons]
    by_cases h : e.1 = k
    · simp [h]
    · have : ¬ k = e.1 := fun h' => h h'.symm
      simp [h, ih, this]

theorem dget_mem {k : K} {a : A} {d : List (K × A)} (h : dget k d = some a) : (k, a) ∈ d := by
  induction d with
  | nil => cases h
  | cons e d ih =>
    rw [dget_cons] at h
    by_cases he : e.1 = k
    · rw [if_pos he] at h
      have : e = (k, a) := Prod.ext he (Option.some.inj h)
      rw [this]; exact List.mem_cons_self
    · rw [if_neg he] at h
      exact List.mem_cons_of_mem _ (ih h)

theorem dget_of_mem {k : K} {a : A} {d : List (K × A)} (hd : (d.map (·.1)).Nodup) (h : (k, a) ∈ d) :
    dget k d = some a := by
  induction d with
  | nil => exact absurd h List.not_mem_nil
  | cons e d ih =>
    rw [List.map_cons, List.nodup_cons] at hd
    rw [dget_cons]
    rcases List.mem_cons.1 h with rfl | h'
    · simp
    · have : e.1 ≠ k := fun he => hd.1 (he ▸ List.mem_map.2 ⟨(k, a), h', rfl⟩)
      rw [if_neg this, ih hd.2 h']

theorem dset_keys (k : K) (a : A) {d : List (K × A)} (hd : (d.map (·.1)).Nodup) : ((dset k a d).map (·.1)).Nodup := by
  unfold dset
  rw [List.map_append, List.nodup_append]
  refine ⟨hd.sublist (List.filter_sublist.map _), by simp, ?_⟩
  intro x hx y hy
  obtain ⟨e, he, rfl⟩ := List.mem_map.1 hx
  have := (List.mem_filter.1 he).2
  rw [List.map_cons, List.map_nil, List.mem_singleton] at hy
  rw [hy]
  simpa using this

theorem mem_dset_keys {k x : K} {a : A} {d : List (K × A)} (h : x ∈ (dset k a d).map (·.1)) : x = k ∨ x ∈ d.map (·.1) := by
  unfold dset at h
  rw [List.map_append, List.mem_append] at h
  rcases h with h | h
  · obtain ⟨e, he, rfl⟩ := List.mem_map.1 h
    exact Or.inr (List.mem_map.2 ⟨e, (List.mem_filter.1 he).1, rfl⟩)
  · left; simpa using h

end Dict

/-! ### Constants -/

/-- Constants that keep their value: no variables and no scalar tensors. -/
def Const.Safe (c : Const) : Prop := c.kind ≠ .var ∧ ¬ (c.kind = .tensor ∧ c.shape = [])

theorem Const.Safe.conv {c : Const} (h : c.Safe) : ∃ c', c.conv = some c' ∧ c'.shape = c.shape ∧ c'.data = c.data := by
  obtain ⟨h1, h2⟩ := h
  rcases c with ⟨k, s, d⟩
  cases k with
  | array => exact ⟨_, rfl, rfl, rfl⟩
  | seq => exact ⟨_, rfl, rfl, rfl⟩
  | var => exact absurd rfl h1
  | tensor =>
    have : s ≠ [] := fun h => h2 ⟨rfl, h⟩
    refine ⟨_, rfl, ?_, rfl⟩
    simp [this]

/-- What the constant at an index becomes. -/
def convAt (l : List Arg) (i : ℕ) : Option Const := (l[i]?).bind fun a => match a with
  | .const c => c.conv
  | _ => none

theorem addArgs_spec : ∀ (l : List Arg) (i : ℕ) (w : List (ℕ × Const)), (∀ c, Arg.const c ∈ l → c.Safe) →
    (∀ j ∈ w.map (·.1), j < i) → ∃ w', addArgs i l w = some w' ∧
      (∀ j, dget j w' = if j < i then dget j w else convAt l (j - i)) ∧
      (∀ j ∈ w'.map (·.1), j < i + l.length)
  | [], i, w, _, hw => ⟨w, rfl, fun j => by
      by_cases h : j < i
      · simp [h]
      · rw [if_neg h]
        have : ¬ (dget j w).isSome = true := fun h' => h (hw j (dget_isSome.1 h'))
        simpa [convAt] using this, by simpa using hw⟩
  | a :: l, i, w, hs, hw => by
    have step : ∀ w1 : List (ℕ × Const), (∀ j ∈ w1.map (·.1), j < i + 1) → ∃ w', addArgs (i + 1) l w1 = some w' ∧
        (∀ j, dget j w' = if j < i + 1 then dget j w1 else convAt l (j - (i + 1))) ∧
        (∀ j ∈ w'.map (·.1), j < i + 1 + l.length) := fun w1 h1 =>
      addArgs_spec l (i + 1) w1 (fun c hc => hs c (List.mem_cons_of_mem _ hc)) h1
    have conv_succ : ∀ j, ¬ j < i + 1 → convAt (a :: l) (j - i) = convAt l (j - (i + 1)) := by
      intro j hj
      unfold convAt
      rw [show j - i = (j - (i + 1)) + 1 by omega, List.getElem?_cons_succ]
    have hw' : ∀ j ∈ w.map (·.1), j < i + 1 := fun j hj => by have := hw j hj; omega
    have wi : dget i w = none := by
      have : ¬ (dget i w).isSome = true := fun h' => by have := hw i (dget_isSome.1 h'); omega
      simpa using this
    have other : (∀ c, a ≠ .const c) → addArgs i (a :: l) w = addArgs (i + 1) l w → ∃ w', addArgs i (a :: l) w = some w' ∧
        (∀ j, dget j w' = if j < i then dget j w else convAt (a :: l) (j - i)) ∧
        (∀ j ∈ w'.map (·.1), j < i + (a :: l).length) := by
      intro ha he
      obtain ⟨w', h1, h2, h3⟩ := step w hw'
      refine ⟨w', by rw [he, h1], ?_, fun j hj => by have := h3 j hj; simp only [List.length_cons]; omega⟩
      intro j
      rw [h2 j]
      by_cases hj : j < i
      · rw [if_pos hj, if_pos (by omega)]
      · rw [if_neg hj]
        by_cases hj' : j < i + 1
        · have : j = i := by omega
          subst this
          rw [if_pos hj', wi]
          cases a with
          | const c => exact absurd rfl (ha c)
          | tensor t => simp [convAt]
          | lit t => simp [convAt]
        · rw [if_neg hj', conv_succ j hj']
    cases a with
    | tensor t => exact other (fun c => by simp) rfl
    | lit t => exact other (fun c => by simp) rfl
    | const c =>
      obtain ⟨c', hc, -, -⟩ := (hs c List.mem_cons_self).conv
      obtain ⟨w', h1, h2, h3⟩ := step (dset i c' w) (fun j hj => by
        rcases mem_dset_keys hj with rfl | h
        · omega
        · exact hw' j h)
      refine ⟨w', by rw [addArgs, hc, Option.bind_some, h1], ?_, fun j hj => by
        have := h3 j hj; simp only [List.length_cons]; omega⟩
      intro j
      rw [h2 j, dget_dset]
      by_cases hj : j < i
      · rw [if_pos hj, if_pos (by omega), if_neg (by omega)]
      · rw [if_neg hj]
        by_cases hj' : j < i + 1
        · have : j = i := by omega
          subst this
          rw [if_pos hj', if_pos rfl]
          simp [convAt, hc]
        · rw [if_neg hj', conv_succ j hj']

theorem addKwargs_spec {params : List String} : ∀ (kw : List (String × Arg)) (w : List (ℕ × Const)),
    (∀ e ∈ kw, e.2.isConst = true → e.1 ∈ params) → (∀ k c, (k, Arg.const c) ∈ kw → c.Safe) →
    (kw.map (·.1)).Nodup → ∃ w', addKwargs params kw w = some w' ∧
      ∀ j, dget j w' = match (params[j]?).bind fun k => if params.idxOf k = j then dget k kw else none with
        | some (.const c) => c.conv
        | _ => dget j w
  | [], w, _, _, _ => ⟨w, rfl, fun j => by
      have : ((params[j]?).bind fun k => if params.idxOf k = j then dget k ([] : List (String × Arg)) else none) = none := by
        cases params[j]? with
        | none => rfl
        | some k => simp [dget_nil]
      rw [this]⟩
  | (k, a) :: l, w, hp, hs, hn => by
    rw [List.map_cons, List.nodup_cons] at hn
    have hrec := fun w1 => addKwargs_spec (params := params) l w1 (fun e he => hp e (List.mem_cons_of_mem _ he))
      (fun k c h => hs k c (List.mem_cons_of_mem _ h)) hn.2
    have kl : dget k l = none := by
      have : ¬ (dget k l).isSome = true := fun h => hn.1 (dget_isSome.1 h)
      simpa using this
    have other : (∀ c, a ≠ .const c) → addKwargs params ((k, a) :: l) w = addKwargs params l w →
        ∃ w', addKwargs params ((k, a) :: l) w = some w' ∧
        ∀ j, dget j w' = match (params[j]?).bind fun k' => if params.idxOf k' = j then dget k' ((k, a) :: l) else none with
          | some (.const c) => c.conv
          | _ => dget j w := by
      intro ha he
      obtain ⟨w', h1, h2⟩ := hrec w
      refine ⟨w', by rw [he, h1], fun j => ?_⟩
      rw [h2 j]
      cases hj : params[j]? with
      | none => rfl
      | some k' =>
        simp only [Option.bind_some]
        by_cases hi : params.idxOf k' = j
        · rw [if_pos hi, if_pos hi, dget_cons]
          by_cases hk : k = k'
          · subst hk
            rw [if_pos rfl, kl]
            cases a with
            | const c => exact absurd rfl (ha c)
            | tensor t => rfl
            | lit t => rfl
          · rw [if_neg hk]
        · rw [if_neg hi, if_neg hi]
    cases a with
    | tensor t => exact other (fun c => by simp) rfl
    | lit t => exact other (fun c => by simp) rfl
    | const c =>
      have hkp : k ∈ params := hp (k, .const c) List.mem_cons_self rfl
      obtain ⟨c', hc, -, -⟩ := (hs k c List.mem_cons_self).conv
      obtain ⟨w', h1, h2⟩ := hrec (dset (params.idxOf k) c' w)
      refine ⟨w', by rw [addKwargs, if_pos hkp, hc, Option.bind_some, h1], fun j => ?_⟩
      rw [h2 j]
      by_cases hjk : j = params.idxOf k
      · subst hjk
        have hg : params[params.idxOf k]? = some k := by
          rw [List.getElem?_eq_getElem (List.idxOf_lt_length_of_mem hkp), List.getElem_idxOf]
        rw [hg]
        simp only [Option.bind_some, if_true, kl, dget_cons, hc, dget_dset]
      · have e1 : dget j (dset (params.idxOf k) c' w) = dget j w := by rw [dget_dset, if_neg hjk]
        rw [e1]
        cases hj : params[j]? with
        | none => rfl
        | some k' =>
          simp only [Option.bind_some]
          by_cases hi : params.idxOf k' = j
          · have hk : k ≠ k' := fun h => hjk (by rw [h, hi])
            rw [if_pos hi, if_pos hi, dget_cons, if_neg hk]
          · rw [if_neg hi, if_neg hi]

/-! ### Order of the inputs -/

theorem edgeOrder_nodup {ts : List ℕ} (h : ts.Nodup) : edgeOrder ts = ts := by
  unfold edgeOrder
  apply List.Pairwise.insertionSort_eq
  rw [List.pairwise_iff_getElem]
  intro i j hi hj hij
  rw [h.idxOf_getElem i hi, h.idxOf_getElem j hj]
  omega

/-! ### Calls with a list -/

/-- The constants of a list with their indices. -/
def constsAt (i : ℕ) : List Arg → List (ℕ × Const)
  | [] => []
  | .const c :: l => match c.conv with
    | some c' => (i, c') :: constsAt (i + 1) l
    | none => constsAt (i + 1) l
  | .tensor _ :: l => constsAt (i + 1) l
  | .lit _ :: l => constsAt (i + 1) l

theorem dset_fresh {k : ℕ} {a : Const} {d : List (ℕ × Const)} (h : k ∉ d.map (·.1)) : dset k a d = d ++ [(k, a)] := by
  unfold dset
  rw [List.filter_eq_self.2]
  intro e he
  have : e.1 ≠ k := fun h' => h (h' ▸ List.mem_map.2 ⟨e, he, rfl⟩)
  simpa using this

theorem addArgs_list : ∀ (l : List Arg) (i : ℕ) (w : List (ℕ × Const)), (∀ c, Arg.const c ∈ l → c.Safe) →
    (∀ j ∈ w.map (·.1), j < i) → addArgs i l w = some (w ++ constsAt i l)
  | [], i, w, _, _ => by simp [addArgs, constsAt]
  | .tensor t :: l, i, w, hs, hw => by
    rw [addArgs, constsAt]
    exact addArgs_list l (i + 1) w (fun c hc => hs c (List.mem_cons_of_mem _ hc)) fun j hj => by have := hw j hj; omega
  | .lit t :: l, i, w, hs, hw => by
    rw [addArgs, constsAt]
    exact addArgs_list l (i + 1) w (fun c hc => hs c (List.mem_cons_of_mem _ hc)) fun j hj => by have := hw j hj; omega
  | .const c :: l, i, w, hs, hw => by
    obtain ⟨c', hc, -, -⟩ := (hs c List.mem_cons_self).conv
    have hf : i ∉ w.map (·.1) := fun h => by have := hw i h; omega
    rw [addArgs, constsAt, hc, Option.bind_some, dset_fresh hf]
    dsimp only
    rw [addArgs_list l (i + 1) _ (fun c hc => hs c (List.mem_cons_of_mem _ hc)), List.append_assoc]
    · rfl
    · intro j hj
      rw [List.map_append, List.mem_append] at hj
      rcases hj with hj | hj
      · have := hw j hj; omega
      · have : j = i := by simpa using hj
        omega

/-- The list with converted constants, without literals. -/
def convList : List Arg → List Arg
  | [] => []
  | .const c :: l => match c.conv with
    | some c' => .const c' :: convList l
    | none => convList l
  | .tensor t :: l => .tensor t :: convList l
  | .lit _ :: l => convList l

theorem constsAt_sorted : ∀ (l : List Arg) (i : ℕ), (constsAt i l).Pairwise (fun a b => a.1 ≤ b.1) ∧
    ∀ e ∈ constsAt i l, i ≤ e.1
  | [], i => by simp [constsAt]
  | .tensor t :: l, i => by
    obtain ⟨h1, h2⟩ := constsAt_sorted l (i + 1)
    rw [constsAt]
    exact ⟨h1, fun e he => by have := h2 e he; omega⟩
  | .lit t :: l, i => by
    obtain ⟨h1, h2⟩ := constsAt_sorted l (i + 1)
    rw [constsAt]
    exact ⟨h1, fun e he => by have := h2 e he; omega⟩
  | .const c :: l, i => by
    obtain ⟨h1, h2⟩ := constsAt_sorted l (i + 1)
    rw [constsAt]
    cases c.conv with
    | none => exact ⟨h1, fun e he => by have := h2 e he; omega⟩
    | some c' =>
      refine ⟨List.pairwise_cons.2 ⟨fun e he => ?_, h1⟩, fun e he => ?_⟩
      · have := h2 e he
        show i ≤ e.1
        omega
      · rcases List.mem_cons.1 he with rfl | he
        · exact Nat.le_refl _
        · have := h2 e he; omega

theorem insert_consts : ∀ (l : List Arg) (P : List Arg), (∀ c, Arg.const c ∈ l → c.Safe) → (∀ x, Arg.lit x ∉ l) →
    ((constsAt P.length l).map fun e => (e.1, Arg.const e.2)).foldlM
      (fun acc w => if acc.length < w.1 then none else some (MCT.Torch.insertAt acc w.1 w.2))
      (P ++ (l.filterMap Arg.tensor?).map Arg.tensor) = some (P ++ convList l)
  | [], P, _, _ => by simp [constsAt, convList]
  | .lit x :: l, P, _, hl => absurd List.mem_cons_self (hl x)
  | .tensor t :: l, P, hs, hl => by
    have := insert_consts l (P ++ [.tensor t]) (fun c hc => hs c (List.mem_cons_of_mem _ hc))
      (fun x hx => hl x (List.mem_cons_of_mem _ hx))
    rw [List.length_append, List.length_singleton] at this
    rw [constsAt, convList]
    simpa [Arg.tensor?] using this
  | .const c :: l, P, hs, hl => by
    obtain ⟨c', hc, -, -⟩ := (hs c List.mem_cons_self).conv
    have := insert_consts l (P ++ [.const c']) (fun c hc => hs c (List.mem_cons_of_mem _ hc))
      (fun x hx => hl x (List.mem_cons_of_mem _ hx))
    rw [List.length_append, List.length_singleton] at this
    rw [constsAt, convList, hc]
    dsimp only
    rw [List.map_cons, List.foldlM_cons, if_neg (by simp)]
    have h1 : (Arg.const c :: l).filterMap Arg.tensor? = l.filterMap Arg.tensor? := rfl
    have h2 : MCT.Torch.insertAt (P ++ (l.filterMap Arg.tensor?).map Arg.tensor) P.length (Arg.const c') =
        P ++ Arg.const c' :: (l.filterMap Arg.tensor?).map Arg.tensor := by
      unfold MCT.Torch.insertAt
      rw [List.take_left', List.drop_left'] <;> rfl
    rw [h1]
    show (_ : Option _).bind _ = _
    simp only [Option.bind_some, h2]
    simpa using this

theorem convList_val : ∀ {l : List Arg}, (∀ c, Arg.const c ∈ l → c.Safe) → (∀ x, Arg.lit x ∉ l) →
    (convList l).map Arg.val = l.map Arg.val
  | [], _, _ => rfl
  | .lit x :: l, _, hl => absurd List.mem_cons_self (hl x)
  | .tensor t :: l, hs, hl => by
    rw [convList, List.map_cons, List.map_cons, convList_val (fun c hc => hs c (List.mem_cons_of_mem _ hc))
      (fun x hx => hl x (List.mem_cons_of_mem _ hx))]
  | .const c :: l, hs, hl => by
    obtain ⟨c', hc, h1, h2⟩ := (hs c List.mem_cons_self).conv
    rw [convList, hc]
    dsimp only
    rw [List.map_cons, List.map_cons, convList_val (fun c hc => hs c (List.mem_cons_of_mem _ hc))
      (fun x hx => hl x (List.mem_cons_of_mem _ hx))]
    simp only [Arg.val, h1, h2]

theorem mem_constsAt : ∀ {l : List Arg} {i j : ℕ} {c : Const}, (j, c) ∈ constsAt i l →
    ∃ c0, i ≤ j ∧ l[j - i]? = some (.const c0)
  | [], _, _, _, h => absurd h List.not_mem_nil
  | .tensor t :: l, i, j, c, h => by
    rw [constsAt] at h
    obtain ⟨c0, h1, h2⟩ := mem_constsAt h
    exact ⟨c0, by omega, by rw [show j - i = j - (i + 1) + 1 by omega, List.getElem?_cons_succ]; exact h2⟩
  | .lit t :: l, i, j, c, h => by
    rw [constsAt] at h
    obtain ⟨c0, h1, h2⟩ := mem_constsAt h
    exact ⟨c0, by omega, by rw [show j - i = j - (i + 1) + 1 by omega, List.getElem?_cons_succ]; exact h2⟩
  | .const c1 :: l, i, j, c, h => by
    rw [constsAt] at h
    have key : (j, c) ∈ constsAt (i + 1) l → ∃ c0, i ≤ j ∧ (Arg.const c1 :: l)[j - i]? = some (.const c0) := by
      intro h
      obtain ⟨c0, h1, h2⟩ := mem_constsAt h
      exact ⟨c0, by omega, by rw [show j - i = j - (i + 1) + 1 by omega, List.getElem?_cons_succ]; exact h2⟩
    cases hc : c1.conv with
    | none => rw [hc] at h; exact key h
    | some c' =>
      rw [hc] at h
      rcases List.mem_cons.1 h with h | h
      · have : j = i := (Prod.mk.inj h).1
        subst this
        exact ⟨c1, Nat.le_refl _, by simp⟩
      · exact key h

theorem addKwargs_none {params : List String} : ∀ {kw : List (String × Arg)} {w : List (ℕ × Const)},
    (∀ e ∈ kw, e.2.isConst = false) → addKwargs params kw w = some w
  | [], w, _ => rfl
  | (k, .tensor t) :: l, w, h => by rw [addKwargs]; exact addKwargs_none fun e he => h e (List.mem_cons_of_mem _ he)
  | (k, .lit t) :: l, w, h => by rw [addKwargs]; exact addKwargs_none fun e he => h e (List.mem_cons_of_mem _ he)
  | (k, .const t) :: l, w, h => by have := h _ List.mem_cons_self; simp [Arg.isConst] at this

theorem constsAt_none : ∀ {l : List Arg} {i : ℕ}, (l.any Arg.isConst) = false → constsAt i l = []
  | [], _, _ => rfl
  | .tensor t :: l, i, h => by rw [constsAt]; exact constsAt_none (by simpa [Arg.isConst] using h)
  | .lit t :: l, i, h => by rw [constsAt]; exact constsAt_none (by simpa [Arg.isConst] using h)
  | .const c :: l, i, h => by simp [Arg.isConst] at h

/-- C112 (partial: a keyword argument whose parameter has the index of a constant in the list is lost, see
`C112_axis_violated`; the tensors are different): `tf.concat`, `tf.stack` and `tf.add_n` of a list of tensors and
constants get the same list and the same other arguments. -/
theorem C112_list_partial {params : List String} {c : Call} {l : List Arg} (hp : params.Nodup) (hl : c.list = some l)
    (hc : c.Legal params) (hs : ∀ c, Arg.const c ∈ l → c.Safe) (hlit : ∀ x, Arg.lit x ∉ l)
    (hargs : ∀ a ∈ c.args, ∃ x, a = .lit x) (hkw : ∀ e ∈ c.kwargs, ∃ x, e.2 = .lit x)
    (hidx : ∀ (i : ℕ) (c0 : Const) (k : String), l[i]? = some (.const c0) → params[i]? = some k → k ∉ c.kwargs.map (·.1))
    (hd : (kerasInputs c).Nodup) :
    ∃ c', roundTrip params c = some c' ∧ Same params c c' := by
  have hin : kerasInputs c = l.filterMap Arg.tensor? := by
    unfold kerasInputs
    have h1 : c.args.filterMap Arg.tensor? = [] := by
      rw [List.filterMap_eq_nil_iff]
      intro a ha
      obtain ⟨x, rfl⟩ := hargs a ha
      rfl
    have h2 : ((c.kwargs.insertionSort fun a b => a.1 ≤ b.1).filterMap fun e => e.2.tensor?) = [] := by
      rw [List.filterMap_eq_nil_iff]
      intro e he
      rw [List.mem_insertionSort] at he
      obtain ⟨x, hx⟩ := hkw e he
      rw [hx]
      rfl
    rw [h1, h2, hl]
    simp
  have hkeep : keepKw params (constsAt 0 l) c.kwargs = c.kwargs := by
    unfold keepKw
    rw [List.filter_eq_self]
    intro e he
    obtain ⟨x, hx⟩ := hkw e he
    rw [hx]
    simp only [Arg.tensor?, Option.isSome_none, Bool.or_false, Bool.not_eq_true', Bool.and_eq_false_iff,
      decide_eq_false_iff_not]
    by_cases hm : e.1 ∈ params
    · right
      by_contra h
      have h' : (dget (params.idxOf e.1) (constsAt 0 l)).isSome = true := by
        rw [Option.isSome_iff_ne_none]
        simpa using h
      obtain ⟨c1, h1⟩ := Option.isSome_iff_exists.1 h'
      obtain ⟨c0, -, h2⟩ := mem_constsAt (dget_mem h1)
      refine hidx _ c0 e.1 h2 ?_ (List.mem_map.2 ⟨e, he, rfl⟩)
      rw [Nat.sub_zero, List.getElem?_eq_getElem (List.idxOf_lt_length_of_mem hm), List.getElem_idxOf]
    · exact Or.inl hm
  have hrt : roundTrip params c = some ⟨some (convList l), c.args, c.kwargs⟩ := by
    unfold roundTrip readCall
    rw [hl]
    dsimp only
    rw [addArgs_list l 0 [] hs (by simp), Option.bind_some, List.nil_append,
      addKwargs_none (fun e he => by obtain ⟨x, hx⟩ := hkw e he; rw [hx]; rfl), Option.map_some, Option.bind_some]
    unfold buildCall
    dsimp only
    rw [if_pos rfl, edgeOrder_nodup hd, hin, hkeep]
    have key := insert_consts l [] hs hlit
    simp only [List.nil_append, List.length_nil] at key
    cases hany : l.any Arg.isConst with
    | false =>
      rw [constsAt_none hany] at key
      have key' : (l.filterMap Arg.tensor?).map Arg.tensor = convList l := Option.some.inj key
      simp [key']
    | true =>
      simp only [if_true, Option.isSome_some]
      unfold MCT.Torch.insertWeights
      rw [List.Pairwise.insertionSort_eq]
      · rw [key]
        rfl
      · rw [List.pairwise_map]
        exact (constsAt_sorted l 0).1
  refine ⟨_, hrt, ?_⟩
  have hpos : (⟨some (convList l), c.args, c.kwargs⟩ : Call).pos = c.pos := by
    unfold Call.pos
    rw [hl]
    simp only [Option.map_some, convList_val hs hlit]
  unfold Same Call.Legal Call.bound
  rw [hpos]
  exact ⟨hc, fun _ _ => rfl⟩

end MCT.KReader
