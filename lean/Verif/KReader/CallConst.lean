/- C112: functional calls with constants. -/
import Verif.KReader.CallProps
import Mathlib.Data.String.Basic

namespace MCT.KReader

theorem dget_filter {K A : Type} [DecidableEq K] (p : K × A → Bool) {d : List (K × A)} (hd : (d.map (·.1)).Nodup) (k : K) :
    dget k (d.filter p) = (dget k d).bind fun a => if p (k, a) then some a else none := by
  induction d with
  | nil => rfl
  | cons e d ih =>
    rw [List.map_cons, List.nodup_cons] at hd
    have hk : e.1 = k → dget k d = none := by
      intro h
      have : ¬ (dget k d).isSome = true := fun h' => hd.1 (h ▸ dget_isSome.1 h')
      simpa using this
    rw [dget_cons]
    by_cases hp : p e = true
    · rw [List.filter_cons_of_pos hp, dget_cons, ih hd.2]
      by_cases h : e.1 = k
      · have he : (k, e.2) = e := Prod.ext h.symm rfl
        simp [h, he, hp]
      · simp [h]
    · rw [List.filter_cons_of_neg hp, ih hd.2]
      by_cases h : e.1 = k
      · have he : (k, e.2) = e := Prod.ext h.symm rfl
        rw [hk h]
        simp [h, he, hp]
      · simp [h]

/-- The arguments that are moved to the keyword arguments. -/
def movedArg (l : List Arg) (i : ℕ) : Option Arg := (l[i]?).bind fun a => if a.isConst then none else some a

theorem moveArgs_spec {allocs : List String} (hn : allocs.Nodup) : ∀ (l : List Arg) (i : ℕ) (kw : List (String × Arg)),
    i + l.length ≤ allocs.length → (kw.map (·.1)).Nodup → ∃ kw', moveArgs allocs i l kw = some kw' ∧
      (kw'.map (·.1)).Nodup ∧ ∀ k, dget k kw' =
        ((if i ≤ allocs.idxOf k ∧ k ∈ allocs then movedArg l (allocs.idxOf k - i) else none).or (dget k kw))
  | [], i, kw, _, hk => ⟨kw, rfl, hk, fun k => by
      have : (if i ≤ allocs.idxOf k ∧ k ∈ allocs then movedArg [] (allocs.idxOf k - i) else none) = none := by
        simp [movedArg]
      rw [this]; rfl⟩
  | a :: l, i, kw, hl, hk => by
    rw [List.length_cons] at hl
    have hi : i < allocs.length := by omega
    have hget : allocs[i]? = some allocs[i] := List.getElem?_eq_getElem hi
    have hidx : ∀ k, k ∈ allocs → allocs.idxOf k = i → k = allocs[i] := by
      intro k hk h
      subst h
      rw [List.getElem_idxOf]
    have hidx' : allocs.idxOf allocs[i] = i := hn.idxOf_getElem i hi
    have succ : ∀ k, i + 1 ≤ allocs.idxOf k → movedArg (a :: l) (allocs.idxOf k - i) = movedArg l (allocs.idxOf k - (i + 1)) := by
      intro k hk
      unfold movedArg
      rw [show allocs.idxOf k - i = allocs.idxOf k - (i + 1) + 1 by omega, List.getElem?_cons_succ]
    have step : ∀ kw1, (kw1.map (·.1)).Nodup → moveArgs allocs i (a :: l) kw = moveArgs allocs (i + 1) l kw1 →
        (∀ k, dget k kw1 = (if k = allocs[i] then movedArg (a :: l) 0 else none).or (dget k kw)) →
        ∃ kw', moveArgs allocs i (a :: l) kw = some kw' ∧ (kw'.map (·.1)).Nodup ∧ ∀ k, dget k kw' =
          ((if i ≤ allocs.idxOf k ∧ k ∈ allocs then movedArg (a :: l) (allocs.idxOf k - i) else none).or (dget k kw)) := by
      intro kw1 hk1 he hd1
      obtain ⟨kw', h1, h2, h3⟩ := moveArgs_spec hn l (i + 1) kw1 (by omega) hk1
      refine ⟨kw', by rw [he, h1], h2, fun k => ?_⟩
      rw [h3 k, hd1 k]
      by_cases hki : k = allocs[i]
      · subst hki
        simp [hidx']
      · rw [if_neg hki]
        by_cases hm : k ∈ allocs
        · have hne : allocs.idxOf k ≠ i := fun h => hki (hidx k hm h)
          by_cases hle : i + 1 ≤ allocs.idxOf k
          · rw [if_pos ⟨hle, hm⟩, if_pos ⟨by omega, hm⟩, succ k hle]
            rfl
          · rw [if_neg (fun h => hle h.1), if_neg (fun h => hle (by have := h.1; omega))]
            rfl
        · rw [if_neg (fun h => hm h.2), if_neg (fun h => hm h.2)]
          rfl
    cases a with
    | const c =>
      refine step kw hk rfl fun k => ?_
      simp [movedArg, Arg.isConst]
    | tensor t =>
      refine step (dset allocs[i] (.tensor t) kw) (dset_keys _ _ hk) (by rw [moveArgs, hget, Option.bind_some]) fun k => ?_
      rw [dget_dset]
      by_cases h : k = allocs[i] <;> simp [h, movedArg, Arg.isConst]
    | lit t =>
      refine step (dset allocs[i] (.lit t) kw) (dset_keys _ _ hk) (by rw [moveArgs, hget, Option.bind_some]) fun k => ?_
      rw [dget_dset]
      by_cases h : k = allocs[i] <;> simp [h, movedArg, Arg.isConst]

/-- What `fill` needs for a key. -/
def FillOk (kw : List (String × Arg)) (w : List (ℕ × Const)) (p : ℕ) (k : String) : Arg → Prop
  | .lit x => dget k kw = some (.lit x)
  | .const c => dget k kw = none ∧ dget p w = some c
  | .tensor _ => dget k kw = none ∧ dget p w = none

theorem fill_cons (w : List (ℕ × Const)) (pos : ℕ) (k : String) (ks : List String) (kw : List (String × Arg)) (ins : List ℕ) :
    fill w pos (k :: ks) kw ins = if (dget k kw).isSome then fill w (pos + 1) ks kw ins
    else match dget pos w with
      | some c => fill w (pos + 1) ks (dset k (.const c) kw) ins
      | none => match ins with
        | [] => none
        | t :: ins' => fill w (pos + 1) ks (dset k (.tensor t) kw) ins' := by
  cases ins <;> rfl

theorem fill_spec {w : List (ℕ × Const)} (E : String → Arg) (rest : List ℕ) : ∀ (ks : List String) (pos : ℕ)
    (kw : List (String × Arg)), ks.Nodup → (kw.map (·.1)).Nodup →
    (∀ (i : ℕ) (k : String), ks[i]? = some k → FillOk kw w (pos + i) k (E k)) →
    ∃ kw', fill w pos ks kw (ks.filterMap (fun k => (E k).tensor?) ++ rest) = some (kw', rest) ∧ (kw'.map (·.1)).Nodup ∧
      ∀ k, dget k kw' = if k ∈ ks then some (E k) else dget k kw
  | [], pos, kw, _, hk, _ => ⟨kw, rfl, hk, fun k => by simp⟩
  | k :: ks, pos, kw, hn, hk, h => by
    rw [List.nodup_cons] at hn
    have h0 := h 0 k rfl
    have step : ∀ kw1, (kw1.map (·.1)).Nodup → (∀ k', dget k' kw1 = if k' = k then some (E k) else dget k' kw) →
        ∃ kw', fill w (pos + 1) ks kw1 (ks.filterMap (fun k => (E k).tensor?) ++ rest) = some (kw', rest) ∧
          (kw'.map (·.1)).Nodup ∧ ∀ k', dget k' kw' = if k' ∈ k :: ks then some (E k') else dget k' kw := by
      intro kw1 hk1 hd1
      obtain ⟨kw', g1, g2, g3⟩ := fill_spec E rest ks (pos + 1) kw1 hn.2 hk1 (by
        intro i k' hi
        have hne : k' ≠ k := fun h' => hn.1 (h' ▸ List.mem_of_getElem? hi)
        have := h (i + 1) k' (by rw [List.getElem?_cons_succ]; exact hi)
        rw [show pos + (i + 1) = pos + 1 + i by omega] at this
        have hd : dget k' kw1 = dget k' kw := by rw [hd1, if_neg hne]
        cases hE : E k' <;> rw [hE] at this <;> simpa only [FillOk, hd] using this)
      refine ⟨kw', g1, g2, fun k' => ?_⟩
      rw [g3 k', hd1 k']
      by_cases h1 : k' = k
      · subst h1
        simp
      · simp [h1]
    rw [fill_cons]
    cases hE : E k with
    | lit x =>
      rw [hE] at h0
      have h0' : dget k kw = some (.lit x) := h0
      rw [h0', if_pos Option.isSome_some, List.filterMap_cons_none (by rw [hE]; rfl)]
      refine step kw hk fun k' => ?_
      by_cases h1 : k' = k
      · rw [if_pos h1, h1, h0', hE]
      · rw [if_neg h1]
    | const c =>
      rw [hE] at h0
      obtain ⟨h1, h2⟩ := h0
      rw [Nat.add_zero] at h2
      rw [h1, if_neg (by simp), List.filterMap_cons_none (by rw [hE]; rfl), h2]
      dsimp only
      refine step (dset k (.const c) kw) (dset_keys _ _ hk) fun k' => ?_
      rw [dget_dset, hE]
    | tensor t =>
      rw [hE] at h0
      obtain ⟨h1, h2⟩ := h0
      rw [Nat.add_zero] at h2
      have hc : (k :: ks).filterMap (fun k => (E k).tensor?) = t :: ks.filterMap (fun k => (E k).tensor?) := by
        rw [List.filterMap_cons_some (by rw [hE]; rfl)]
      rw [h1, if_neg (by simp), hc, h2]
      dsimp only [List.cons_append]
      refine step (dset k (.tensor t) kw) (dset_keys _ _ hk) fun k' => ?_
      rw [dget_dset, hE]

/-- The argument of a parameter. -/
def Call.arg (params : List String) (c : Call) (k : String) : Option Arg :=
  if params.idxOf k < c.args.length then c.args[params.idxOf k]? else dget k c.kwargs

theorem take_filter_of {A : Type} (q : A → Bool) : ∀ (l : List A) (m : ℕ), (∀ i a, i < m → l[i]? = some a → q a = true) →
    (l.filter q).take m = l.take m
  | [], _, _ => by simp
  | a :: l, 0, _ => by simp
  | a :: l, m + 1, h => by
    rw [List.filter_cons_of_pos (h 0 a (by omega) rfl), List.take_succ_cons, List.take_succ_cons,
      take_filter_of q l m fun i a hi ha => h (i + 1) a (by omega) (by rw [List.getElem?_cons_succ]; exact ha)]

theorem idxOf_of_getElem? {l : List String} (hl : l.Nodup) {i : ℕ} {k : String} (h : l[i]? = some k) : l.idxOf k = i := by
  obtain ⟨hi, rfl⟩ := List.getElem?_eq_some_iff.1 h
  exact hl.idxOf_getElem i hi

theorem getElem?_idxOf' {l : List String} {k : String} (h : k ∈ l) : l[l.idxOf k]? = some k := by
  rw [List.getElem?_eq_getElem (List.idxOf_lt_length_of_mem h), List.getElem_idxOf]

theorem allocs_nodup {params : List String} (hp : params.Nodup) (c : Call) : (allocsOf params c).Nodup := by
  have : (allocsOf params c).Sublist (params.take c.args.length ++ params.drop c.args.length) :=
    List.Sublist.append (List.Sublist.refl _) List.filter_sublist
  rw [List.take_append_drop] at this
  exact hp.sublist this

theorem mem_drop {params : List String} (hp : params.Nodup) {n : ℕ} {k : String} :
    k ∈ params.drop n ↔ k ∈ params ∧ n ≤ params.idxOf k := by
  constructor
  · intro h
    have hm : k ∈ params := List.mem_of_mem_drop h
    refine ⟨hm, ?_⟩
    obtain ⟨i, hi⟩ := List.mem_iff_getElem?.1 h
    rw [List.getElem?_drop] at hi
    have := idxOf_of_getElem? hp hi
    omega
  · rintro ⟨hm, h⟩
    rw [List.mem_iff_getElem?]
    exact ⟨params.idxOf k - n, by rw [List.getElem?_drop, Nat.add_sub_cancel' h, getElem?_idxOf' hm]⟩

theorem mem_take {params : List String} (hp : params.Nodup) {n : ℕ} {k : String} :
    k ∈ params.take n ↔ k ∈ params ∧ params.idxOf k < n := by
  constructor
  · intro h
    have hm : k ∈ params := List.mem_of_mem_take h
    refine ⟨hm, ?_⟩
    obtain ⟨i, hi⟩ := List.mem_iff_getElem?.1 h
    rw [List.getElem?_take] at hi
    by_cases hin : i < n
    · rw [if_pos hin] at hi
      have := idxOf_of_getElem? hp hi
      omega
    · rw [if_neg hin] at hi
      cases hi
  · rintro ⟨hm, h⟩
    rw [List.mem_iff_getElem?]
    exact ⟨params.idxOf k, by rw [List.getElem?_take, if_pos h, getElem?_idxOf' hm]⟩

theorem mem_allocs {params : List String} (hp : params.Nodup) {c : Call} (hn : c.args.length ≤ params.length)
    {k : String} (hk : ∀ k ∈ c.kwargs.map (·.1), k ∈ params.drop c.args.length) :
    k ∈ allocsOf params c ↔ k ∈ params ∧ (c.arg params k).isSome = true := by
  unfold allocsOf Call.arg
  rw [List.mem_append, List.mem_filter, mem_take hp, mem_drop hp]
  by_cases h : params.idxOf k < c.args.length
  · rw [if_pos h]
    have : c.args[params.idxOf k]?.isSome = true := by simp [h]
    simp [this, h]
  · rw [if_neg h]
    constructor
    · rintro (⟨_, h'⟩ | ⟨⟨h1, h2⟩, h3⟩)
      · exact absurd h' h
      · exact ⟨h1, h3⟩
    · rintro ⟨h1, h2⟩
      exact Or.inr ⟨⟨h1, by omega⟩, h2⟩

/-- Parameters before a constant keep their place in the allocation. -/
theorem allocs_take {params : List String} (hp : params.Nodup) {c : Call} (hn : c.args.length ≤ params.length) {m : ℕ}
    (h : ∀ k' ∈ params, c.args.length ≤ params.idxOf k' → params.idxOf k' < m → k' ∈ c.kwargs.map (·.1)) :
    (allocsOf params c).take m = params.take m := by
  unfold allocsOf
  conv_rhs => rw [← List.take_append_drop c.args.length params]
  rw [List.take_append, List.take_append]
  congr 1
  refine take_filter_of _ _ _ fun i k hi hk => ?_
  rw [List.getElem?_drop] at hk
  have h1 := idxOf_of_getElem? hp hk
  rw [List.length_take, Nat.min_eq_left hn] at hi
  exact dget_isSome.2 (h k (List.mem_of_getElem? hk) (by omega) (by omega))

theorem names_sorted (kw : List (String × Arg)) (p : String × Arg → Bool) :
    (((kw.insertionSort fun a b => a.1 ≤ b.1).filter p).map (·.1)).Pairwise (· ≤ ·) := by
  have : (kw.insertionSort fun a b => a.1 ≤ b.1).Pairwise (fun a b => a.1 ≤ b.1) := by
    haveI : Std.Total (fun a b : String × Arg => a.1 ≤ b.1) := ⟨fun a b => le_total a.1 b.1⟩
    haveI : IsTrans (String × Arg) (fun a b : String × Arg => a.1 ≤ b.1) := ⟨fun a b c => le_trans⟩
    exact List.pairwise_insertionSort _ _
  rw [List.pairwise_map]
  exact this.filter _

/-- A keyword argument is a tensor. -/
def tensorKw (c : Call) (k : String) : Bool := ((dget k c.kwargs).bind Arg.tensor?).isSome

theorem kw_tensors {ks : List String} {c : Call} (hks : ks.Nodup) (hk : (c.kwargs.map (·.1)).Nodup)
    (hsub : ∀ k ∈ c.kwargs.map (·.1), k ∈ ks) (hord : (ks.filter (tensorKw c)).Pairwise (· ≤ ·)) :
    ((c.kwargs.insertionSort fun a b => a.1 ≤ b.1).filterMap fun e => e.2.tensor?) =
      ks.filterMap fun k => (dget k c.kwargs).bind Arg.tensor? := by
  have hperm := List.perm_insertionSort (fun a b : String × Arg => a.1 ≤ b.1) c.kwargs
  have hk' : ((c.kwargs.insertionSort fun a b => a.1 ≤ b.1).map (·.1)).Nodup := (hperm.map _).nodup_iff.2 hk
  have hnames : ((c.kwargs.insertionSort fun a b => a.1 ≤ b.1).filter fun e => e.2.tensor?.isSome).map (·.1) =
      ks.filter (tensorKw c) := by
    refine List.Perm.eq_of_pairwise (le := (· ≤ ·)) (fun a b _ _ h1 h2 => le_antisymm h1 h2) (names_sorted _ _) hord ?_
    rw [List.perm_ext_iff_of_nodup (hk'.sublist (List.filter_sublist.map _)) (hks.sublist List.filter_sublist)]
    intro k
    rw [List.mem_map, List.mem_filter]
    constructor
    · rintro ⟨e, he, rfl⟩
      obtain ⟨h1, h2⟩ := List.mem_filter.1 he
      rw [List.mem_insertionSort] at h1
      refine ⟨hsub _ (List.mem_map.2 ⟨e, h1, rfl⟩), ?_⟩
      unfold tensorKw
      rw [dget_of_mem hk (show (e.1, e.2) ∈ c.kwargs from h1)]
      exact h2
    · rintro ⟨-, h2⟩
      unfold tensorKw at h2
      cases hd : dget k c.kwargs with
      | none => rw [hd] at h2; cases h2
      | some a =>
        rw [hd] at h2
        refine ⟨(k, a), List.mem_filter.2 ⟨?_, h2⟩, rfl⟩
        rw [List.mem_insertionSort]
        exact dget_mem hd
  have e1 : ((c.kwargs.insertionSort fun a b => a.1 ≤ b.1).filterMap fun e => e.2.tensor?) =
      (((c.kwargs.insertionSort fun a b => a.1 ≤ b.1).filter fun e => e.2.tensor?.isSome).map (·.1)).filterMap
        fun k => (dget k c.kwargs).bind Arg.tensor? := by
    rw [List.filterMap_map, List.filterMap_filter]
    refine List.filterMap_congr fun e he => ?_
    rw [List.mem_insertionSort] at he
    have : dget e.1 c.kwargs = some e.2 := dget_of_mem hk he
    simp only [Function.comp, this, Option.bind_some]
    cases e.2 <;> rfl
  rw [e1, hnames, List.filterMap_filter]
  refine List.filterMap_congr fun k _ => ?_
  unfold tensorKw
  cases (dget k c.kwargs).bind Arg.tensor? <;> rfl

/-- An argument with its constant converted. -/
def Arg.cv : Arg → Arg
  | .const c => .const (c.conv.getD c)
  | a => a

theorem Arg.cv_tensor (a : Arg) : a.cv.tensor? = a.tensor? := by cases a <;> rfl

theorem Arg.cv_val {a : Arg} (h : ∀ c, a = .const c → c.Safe) : a.cv.val = a.val := by
  cases a with
  | const c =>
    obtain ⟨c', h1, h2, h3⟩ := (h c rfl).conv
    simp [Arg.cv, Arg.val, h1, h2, h3]
  | tensor t => rfl
  | lit t => rfl

/-- C112 (partial: a function without default values before its constants, in the sense of `hhole`, and with tensor
keywords in alphabetical order; see `C112_hole_violated` and `C112_alphabetical_violated`; the tensors are different): a
call with constants is rebuilt with the same arguments. -/
theorem C112_const_partial {params : List String} {c : Call} (hp : params.Nodup) (hl : c.list = none)
    (hc : c.Legal params) (hconst : hasConst c = true)
    (hsa : ∀ c0, Arg.const c0 ∈ c.args → c0.Safe) (hsk : ∀ k c0, (k, Arg.const c0) ∈ c.kwargs → c0.Safe)
    (hd : (kerasInputs c).Nodup)
    (hhole : ∀ k c0, (k, Arg.const c0) ∈ c.kwargs → ∀ k' ∈ params.drop c.args.length, params.idxOf k' < params.idxOf k →
      k' ∈ c.kwargs.map (·.1))
    (hord : (params.filter (tensorKw c)).Pairwise (· ≤ ·)) :
    ∃ c', roundTrip params c = some c' ∧ Same params c c' := by
  have hpos : c.pos.length = c.args.length := by simp [Call.pos, hl]
  obtain ⟨hn, hk, hkp⟩ := hc
  rw [hpos] at hn hkp
  have hkp' : ∀ k, (dget k c.kwargs).isSome = true → k ∈ params ∧ c.args.length ≤ params.idxOf k := fun k h =>
    (mem_drop hp).1 (hkp k (dget_isSome.1 h))
  have hkn : ∀ k, params.idxOf k < c.args.length → dget k c.kwargs = none := by
    intro k h
    have : ¬ (dget k c.kwargs).isSome = true := fun h' => by have := (hkp' k h').2; omega
    simpa using this
  -- the allocation
  have han := allocs_nodup hp c
  have hmem : ∀ k, k ∈ allocsOf params c ↔ k ∈ params ∧ (c.arg params k).isSome = true := fun k => mem_allocs hp hn hkp
  have htake : (allocsOf params c).take c.args.length = params.take c.args.length :=
    allocs_take hp hn fun k' _ h1 h2 => by omega
  have halen : c.args.length ≤ (allocsOf params c).length := by
    have := congrArg List.length htake
    rw [List.length_take, List.length_take, Nat.min_eq_left hn] at this
    omega
  have hane : allocsOf params c ≠ [] := by
    intro h0
    unfold hasConst at hconst
    rw [Bool.or_eq_true, List.any_eq_true, List.any_eq_true] at hconst
    rcases hconst with ⟨a, ha, -⟩ | ⟨e, he, -⟩
    · rw [h0] at halen
      have : 0 < c.args.length := List.length_pos_of_mem ha
      simp at halen
      rw [halen] at this
      simp at this
    · have h1 : (dget e.1 c.kwargs).isSome = true := dget_isSome.2 (List.mem_map.2 ⟨e, he, rfl⟩)
      have h2 := hkp' e.1 h1
      have : e.1 ∈ allocsOf params c := (hmem _).2 ⟨h2.1, by unfold Call.arg; rw [if_neg (by omega)]; exact h1⟩
      rw [h0] at this
      exact absurd this List.not_mem_nil
  have hget : ∀ i, i < c.args.length → (allocsOf params c)[i]? = params[i]? := by
    intro i hi
    have := congrArg (fun l => l[i]?) htake
    simpa only [List.getElem?_take, if_pos hi] using this
  have hgetc : ∀ k c0, c.arg params k = some (.const c0) → k ∈ params →
      (allocsOf params c)[params.idxOf k]? = some k := by
    intro k c0 h hkm
    unfold Call.arg at h
    by_cases hi : params.idxOf k < c.args.length
    · rw [hget _ hi, getElem?_idxOf' hkm]
    · rw [if_neg hi] at h
      have ht : (allocsOf params c).take (params.idxOf k + 1) = params.take (params.idxOf k + 1) := by
        refine allocs_take hp hn fun k' hk' h1 h2 => ?_
        rcases Nat.lt_or_ge (params.idxOf k') (params.idxOf k) with h3 | h3
        · exact hhole k c0 (dget_mem h) k' ((mem_drop hp).2 ⟨hk', h1⟩) h3
        · have : params.idxOf k' = params.idxOf k := by omega
          have : k' = k := (List.idxOf_inj hk').1 this
          rw [this]
          exact dget_isSome.1 (by rw [h]; rfl)
      have := congrArg (fun l => l[params.idxOf k]?) ht
      simp only [List.getElem?_take, if_pos (Nat.lt_succ_self _)] at this
      rw [this, getElem?_idxOf' hkm]
  -- the constants of the arguments
  obtain ⟨w1, hw1, hw1g, -⟩ := addArgs_spec c.args 0 [] hsa (by simp)
  have hw1g' : ∀ j, dget j w1 = convAt c.args j := fun j => by rw [hw1g j, if_neg (by omega), Nat.sub_zero]
  -- the arguments are moved
  obtain ⟨kw1, hm1, hm2, hm3⟩ := moveArgs_spec han c.args 0 c.kwargs (by omega) hk
  have hidx : ∀ k, params.idxOf k < c.args.length → k ∈ params → (allocsOf params c).idxOf k = params.idxOf k := by
    intro k h1 h2
    exact idxOf_of_getElem? han (by rw [hget _ h1, getElem?_idxOf' h2])
  have hkw1 : ∀ k ∈ params, dget k kw1 = (c.arg params k).bind fun a =>
      if params.idxOf k < c.args.length ∧ a.isConst = true then none else some a := by
    intro k hkm
    rw [hm3 k]
    unfold Call.arg
    by_cases hi : params.idxOf k < c.args.length
    · have hka : k ∈ allocsOf params c := by
        rw [List.mem_iff_getElem?]
        exact ⟨_, (hget _ hi).trans (getElem?_idxOf' hkm)⟩
      rw [if_pos ⟨Nat.zero_le _, hka⟩, hidx k hi hkm, if_pos hi, hkn k hi, Nat.sub_zero, Option.or_none]
      unfold movedArg
      simp only [hi, true_and]
    · rw [if_neg hi]
      have : (if 0 ≤ (allocsOf params c).idxOf k ∧ k ∈ allocsOf params c then
          movedArg c.args ((allocsOf params c).idxOf k - 0) else none) = none := by
        by_cases hka : k ∈ allocsOf params c
        · rw [if_pos ⟨Nat.zero_le _, hka⟩]
          have hge : c.args.length ≤ (allocsOf params c).idxOf k := by
            by_contra hlt
            have h1 := getElem?_idxOf' hka
            rw [hget _ (by omega)] at h1
            have := idxOf_of_getElem? hp h1
            omega
          unfold movedArg
          rw [List.getElem?_eq_none (by omega)]
          rfl
        · rw [if_neg (fun h => hka h.2)]
      rw [this, Option.none_or]
      simp [hi]
  have hkw1p : ∀ k, (dget k kw1).isSome = true → k ∈ params := by
    intro k h
    rw [hm3 k] at h
    by_cases hka : k ∈ allocsOf params c
    · exact ((hmem k).1 hka).1
    · rw [if_neg (fun h => hka h.2), Option.none_or] at h
      exact (hkp' k h).1
  -- the constants of the keyword arguments
  have hkconst : ∀ k c0, (k, Arg.const c0) ∈ kw1 → (k, Arg.const c0) ∈ c.kwargs ∧ k ∈ params := by
    intro k c0 h
    have hg := dget_of_mem hm2 h
    have hkm : k ∈ params := hkw1p k (by rw [hg]; rfl)
    refine ⟨?_, hkm⟩
    rw [hkw1 k hkm] at hg
    unfold Call.arg at hg
    by_cases hi : params.idxOf k < c.args.length
    · rw [if_pos hi] at hg
      cases ha : c.args[params.idxOf k]? with
      | none => rw [ha] at hg; cases hg
      | some a =>
        rw [ha, Option.bind_some] at hg
        by_cases hac : a.isConst = true
        · rw [if_pos ⟨hi, hac⟩] at hg; cases hg
        · rw [if_neg (fun h => hac h.2)] at hg
          rw [Option.some.inj hg] at hac
          exact absurd rfl hac
    · rw [if_neg hi] at hg
      cases ha : dget k c.kwargs with
      | none => rw [ha] at hg; cases hg
      | some a =>
        rw [ha, Option.bind_some, if_neg (fun h => hi h.1)] at hg
        rw [Option.some.inj hg] at ha
        exact dget_mem ha
  obtain ⟨w, hw, hwg⟩ := addKwargs_spec (params := params) kw1 w1
    (fun e he hec => by
      rcases e with ⟨k, a⟩
      cases a with
      | const c0 => exact (hkconst k c0 he).2
      | tensor t => cases hec
      | lit t => cases hec)
    (fun k c0 h => hsk k c0 (hkconst k c0 h).1) hm2
  have hwk : ∀ k ∈ params, dget (params.idxOf k) w = match c.arg params k with
      | some (.const c0) => c0.conv
      | _ => none := by
    intro k hkm
    rw [hwg, getElem?_idxOf' hkm, Option.bind_some, if_pos rfl, hkw1 k hkm, hw1g']
    unfold Call.arg convAt
    by_cases hi : params.idxOf k < c.args.length
    · simp only [if_pos hi]
      cases ha : c.args[params.idxOf k]? with
      | none => rfl
      | some a => cases a <;> simp [hi, Arg.isConst]
    · have hnone : c.args[params.idxOf k]? = none := List.getElem?_eq_none (by omega)
      simp only [if_neg hi, hnone]
      cases ha : dget k c.kwargs with
      | none => rfl
      | some a => cases a <;> simp [hi]
  have hwsome : ∀ j c0, dget j w = some c0 → ∃ k, params[j]? = some k := by
    intro j c0 h
    cases hj : params[j]? with
    | some k => exact ⟨k, rfl⟩
    | none =>
      rw [hwg, hj] at h
      have : dget j w1 = some c0 := h
      rw [hw1g'] at this
      unfold convAt at this
      rw [List.getElem?_eq_none (by have := List.getElem?_eq_none_iff.1 hj; omega)] at this
      cases this
  -- no argument stays
  have hargs : (c.args.zipIdx.filter fun e => !((dget e.2 w1).isSome || e.1.tensor?.isSome ||
          (decide (allocsOf params c ≠ []) && (dget ((allocsOf params c).getD e.2 "") kw1).isSome))) = [] := by
    rw [List.filter_eq_nil_iff]
    rintro ⟨a, i⟩ he
    have hi := List.mk_mem_zipIdx_iff_getElem?.1 he
    have hlt : i < c.args.length := (List.getElem?_eq_some_iff.1 hi).1
    simp only [Bool.not_eq_true, Bool.not_eq_false']
    cases a with
    | tensor t => simp [Arg.tensor?]
    | const c0 =>
      obtain ⟨c', hc', -, -⟩ := (hsa c0 (List.mem_of_getElem? hi)).conv
      have : dget i w1 = some c' := by rw [hw1g', convAt, hi]; exact hc'
      simp [this]
    | lit x =>
      obtain ⟨k, hpk⟩ : ∃ k, params[i]? = some k := ⟨params[i], List.getElem?_eq_getElem (by omega)⟩
      have hak : (allocsOf params c)[i]? = some k := (hget i hlt).trans hpk
      have hik := idxOf_of_getElem? hp hpk
      have : dget k kw1 = some (.lit x) := by
        rw [hkw1 k (List.mem_of_getElem? hpk)]
        unfold Call.arg
        rw [hik, if_pos hlt, hi]
        simp [Arg.isConst]
      simp [List.getD_eq_getElem?_getD, hak, this, hane]
  -- the rebuilt call
  have hkw2n : ((keepKw params w kw1).map (·.1)).Nodup := hm2.sublist (List.filter_sublist.map _)
  have hkw2 : ∀ k ∈ params, dget k (keepKw params w kw1) = match c.arg params k with
      | some (.lit x) => some (.lit x)
      | _ => none := by
    intro k hkm
    unfold keepKw
    rw [dget_filter _ hm2, hkw1 k hkm]
    have hwk' := hwk k hkm
    cases ha : c.arg params k with
    | none => rfl
    | some a =>
      cases a with
      | tensor t => simp [Arg.isConst, Arg.tensor?]
      | lit x =>
        rw [ha] at hwk'
        have hwk'' : dget (params.idxOf k) w = none := hwk'
        simp [Arg.isConst, Arg.tensor?, hwk'']
      | const c0 =>
        rw [ha] at hwk'
        have hsafe : c0.Safe := by
          unfold Call.arg at ha
          by_cases hi : params.idxOf k < c.args.length
          · rw [if_pos hi] at ha; exact hsa c0 (List.mem_of_getElem? ha)
          · rw [if_neg hi] at ha; exact hsk k c0 (dget_mem ha)
        obtain ⟨c', hc', -, -⟩ := hsafe.conv
        have hwk'' : dget (params.idxOf k) w = some c' := hwk'.trans hc'
        simp [hwk'', hkm]
  have hsafe : ∀ k c0, c.arg params k = some (.const c0) → c0.Safe := by
    intro k c0 ha
    unfold Call.arg at ha
    by_cases hi : params.idxOf k < c.args.length
    · rw [if_pos hi] at ha; exact hsa c0 (List.mem_of_getElem? ha)
    · rw [if_neg hi] at ha; exact hsk k c0 (dget_mem ha)
  have hins : kerasInputs c = (allocsOf params c).filterMap (fun k => (((c.arg params k).getD (.lit 0)).cv).tensor?) ++ [] := by
    have hkt := kw_tensors hp hk (fun k hk' => List.mem_of_mem_drop (hkp k hk')) hord
    unfold kerasInputs
    rw [hl, hkt, List.append_nil]
    simp only [Option.getD_none, List.filterMap_nil, List.nil_append, Arg.cv_tensor]
    unfold allocsOf
    rw [List.filterMap_append]
    congr 1
    · have e1 : c.args = (params.take c.args.length).map fun k => (c.arg params k).getD (.lit 0) := by
        apply List.ext_getElem?
        intro i
        rw [List.getElem?_map, List.getElem?_take]
        by_cases hi : i < c.args.length
        · obtain ⟨k, hpk⟩ : ∃ k, params[i]? = some k := ⟨params[i], List.getElem?_eq_getElem (by omega)⟩
          rw [if_pos hi, hpk, Option.map_some]
          unfold Call.arg
          rw [idxOf_of_getElem? hp hpk, if_pos hi, List.getElem?_eq_getElem hi]
          rfl
        · rw [if_neg hi, List.getElem?_eq_none (by omega)]
          rfl
      conv_lhs => rw [e1]
      rw [List.filterMap_map]
      rfl
    · rw [List.filterMap_filter]
      conv_lhs => rw [← List.take_append_drop c.args.length params]
      rw [List.filterMap_append]
      have e2 : (params.take c.args.length).filterMap (fun k => (dget k c.kwargs).bind Arg.tensor?) = [] := by
        rw [List.filterMap_eq_nil_iff]
        intro k hkt
        rw [hkn k ((mem_take hp).1 hkt).2]
        rfl
      rw [e2, List.nil_append]
      refine List.filterMap_congr fun k hkd => ?_
      have e3 : ¬ params.idxOf k < c.args.length := by have := ((mem_drop hp).1 hkd).2; omega
      unfold Call.arg
      simp only [if_neg e3]
      cases dget k c.kwargs <;> rfl
  obtain ⟨kw3, hf1, hf2, hf3⟩ := fill_spec (w := w) (fun k => ((c.arg params k).getD (.lit 0)).cv) [] (allocsOf params c) 0
    (keepKw params w kw1) han hkw2n (by
      intro i k hi
      rw [Nat.zero_add]
      have hka : k ∈ allocsOf params c := List.mem_of_getElem? hi
      obtain ⟨hkm, hks⟩ := (hmem k).1 hka
      obtain ⟨a, ha⟩ := Option.isSome_iff_exists.1 hks
      have h2 := hkw2 k hkm
      rw [ha] at h2
      rw [ha, Option.getD_some]
      cases a with
      | lit x => exact h2
      | const c0 =>
        obtain ⟨c', hc', -, -⟩ := (hsafe k c0 ha).conv
        have : i = params.idxOf k := by
          have h3 := idxOf_of_getElem? han hi
          have h4 := idxOf_of_getElem? han (hgetc k c0 ha hkm)
          omega
        refine ⟨h2, ?_⟩
        have h5 := hwk k hkm
        rw [ha] at h5
        have h5' : dget (params.idxOf k) w = c0.conv := h5
        rw [this, h5', hc']
        rfl
      | tensor t =>
        refine ⟨h2, ?_⟩
        cases hwi : dget i w with
        | none => rfl
        | some c1 =>
          exfalso
          obtain ⟨k1, hk1⟩ := hwsome i c1 hwi
          have hk1m := List.mem_of_getElem? hk1
          have hik1 := idxOf_of_getElem? hp hk1
          have h5 := hwk k1 hk1m
          rw [hik1, hwi] at h5
          cases ha1 : c.arg params k1 with
          | none => rw [ha1] at h5; cases h5
          | some a1 =>
            rw [ha1] at h5
            cases a1 with
            | tensor t => cases h5
            | lit t => cases h5
            | const c2 =>
              have h6 := hgetc k1 c2 ha1 hk1m
              rw [hik1, hi] at h6
              rw [Option.some.inj h6, ha1] at ha
              cases ha)
  refine ⟨⟨none, [], kw3⟩, ?_, ?_⟩
  · unfold roundTrip readCall
    rw [hl]
    dsimp only
    rw [hconst, if_pos rfl, hw1, Option.bind_some, if_neg hane, hm1, Option.bind_some, hw, Option.map_some,
      Option.bind_some, hargs]
    unfold buildCall
    dsimp only
    rw [if_neg (by simp), edgeOrder_nodup hd, if_pos rfl, Option.getD_some, hins, hf1]
    rfl
  · have hk3 : ∀ k, (dget k kw3).isSome = true → k ∈ params := by
      intro k h
      rw [hf3 k] at h
      by_cases hka : k ∈ allocsOf params c
      · exact ((hmem k).1 hka).1
      · rw [if_neg hka] at h
        unfold keepKw at h
        rw [dget_filter _ hm2] at h
        obtain ⟨a, ha⟩ := Option.isSome_iff_exists.1 h
        obtain ⟨a', ha', -⟩ := Option.bind_eq_some_iff.1 ha
        exact hkw1p k (by rw [ha']; rfl)
    refine ⟨⟨?_, hf2, ?_⟩, ?_⟩
    · simp [Call.pos]
    · intro k h
      simpa [Call.pos] using hk3 k (dget_isSome.2 h)
    · intro k hkm
      unfold Call.bound
      rw [hpos]
      have e0 : (⟨none, [], kw3⟩ : Call).pos = [] := rfl
      rw [e0, if_neg (by simp), hf3 k]
      have hmk := hmem k
      by_cases hka : k ∈ allocsOf params c
      · obtain ⟨-, hks⟩ := hmk.1 hka
        obtain ⟨a, ha⟩ := Option.isSome_iff_exists.1 hks
        rw [if_pos hka, ha, Option.getD_some, Option.map_some,
          Arg.cv_val (fun c0 h => hsafe k c0 (by rw [ha, h]))]
        unfold Call.arg at ha
        by_cases hi : params.idxOf k < c.args.length
        · rw [if_pos hi] at ha
          rw [if_pos hi]
          simp [Call.pos, hl, ha]
        · rw [if_neg hi] at ha
          rw [if_neg hi, ha]
          rfl
      · rw [if_neg hka, hkw2 k hkm]
        have hnone : c.arg params k = none := by
          cases ha : c.arg params k with
          | none => rfl
          | some a => exact absurd (hmk.2 ⟨hkm, by rw [ha]; rfl⟩) hka
        rw [hnone]
        unfold Call.arg at hnone
        by_cases hi : params.idxOf k < c.args.length
        · rw [if_pos hi] at hnone
          have := List.getElem?_eq_none_iff.1 hnone
          omega
        · rw [if_neg hi] at hnone
          rw [if_neg hi, hnone]

end MCT.KReader
