/- C112: functional calls without constants, and calls that are rebuilt with other arguments. -/
import Verif.KReader.CallConst

namespace MCT.KReader

theorem hasConst_false {c : Call} (h : hasConst c = false) : (∀ a ∈ c.args, a.isConst = false) ∧
    ∀ e ∈ c.kwargs, e.2.isConst = false := by
  unfold hasConst at h
  rw [Bool.or_eq_false_iff, List.any_eq_false, List.any_eq_false] at h
  exact ⟨fun a ha => by simpa using h.1 a ha, fun e he => by simpa using h.2 e he⟩

theorem addArgs_none : ∀ {l : List Arg} {i : ℕ} {w : List (ℕ × Const)}, (∀ a ∈ l, a.isConst = false) → addArgs i l w = some w
  | [], _, _, _ => rfl
  | .tensor t :: l, i, w, h => by rw [addArgs]; exact addArgs_none fun a ha => h a (List.mem_cons_of_mem _ ha)
  | .lit t :: l, i, w, h => by rw [addArgs]; exact addArgs_none fun a ha => h a (List.mem_cons_of_mem _ ha)
  | .const c :: l, i, w, h => by have := h _ List.mem_cons_self; simp [Arg.isConst] at this

theorem zipIdx_filter_fst {A : Type} (p : A → Bool) : ∀ (l : List A) (i : ℕ),
    ((l.zipIdx i).filter fun e => p e.1).map (·.1) = l.filter p
  | [], _ => rfl
  | a :: l, i => by
    rw [List.zipIdx_cons]
    cases h : p a
    · rw [List.filter_cons_of_neg (by simp [h]), List.filter_cons_of_neg (by simp [h]), zipIdx_filter_fst p l]
    · rw [List.filter_cons_of_pos (by simp [h]), List.filter_cons_of_pos (by simp [h]), List.map_cons,
        zipIdx_filter_fst p l]

/-- A call without constants: the tensors, then the other arguments, and the keyword arguments that are not tensors. -/
theorem plain_eq {params : List String} {c : Call} (hl : c.list = none) (hconst : hasConst c = false)
    (hd : (kerasInputs c).Nodup) : roundTrip params c = some ⟨none, (kerasInputs c).map Arg.tensor ++
      c.args.filter (fun a => !a.tensor?.isSome), c.kwargs.filter fun e => !e.2.tensor?.isSome⟩ := by
  obtain ⟨h1, h2⟩ := hasConst_false hconst
  unfold roundTrip readCall
  rw [hl]
  dsimp only
  simp only [hconst, Bool.false_eq_true, if_false]
  rw [addArgs_none h1, Option.bind_some, if_pos trivial, Option.bind_some, addKwargs_none h2, Option.map_some,
    Option.bind_some]
  unfold buildCall
  dsimp only
  rw [if_neg (by simp), edgeOrder_nodup hd, Option.getD_none, fill, Option.map_some]
  have e1 : (c.args.zipIdx.filter fun e => !((dget e.2 ([] : List (ℕ × Const))).isSome || e.1.tensor?.isSome ||
      (decide (([] : List String) ≠ []) && (dget (([] : List String).getD e.2 "") c.kwargs).isSome))).map (·.1) =
      c.args.filter fun a => !a.tensor?.isSome := by
    rw [← zipIdx_filter_fst (fun a : Arg => !a.tensor?.isSome) c.args 0]
    congr 1
    refine List.filter_congr fun e _ => ?_
    simp [dget_nil]
  have e2 : keepKw params [] c.kwargs = c.kwargs.filter fun e => !e.2.tensor?.isSome := by
    unfold keepKw
    refine List.filter_congr fun e _ => ?_
    simp [dget_nil]
  rw [e1, e2]

/-- C112 (partial: arguments that are not tensors come after the tensors, see `C112_literal_first_violated`; keyword
tensors continue the arguments in alphabetical order, see `C112_alphabetical_violated` and `C112_keyword_tensor_violated`;
the tensors are different, see `C112_repeated_violated`): a call without constants is rebuilt with the same arguments. -/
theorem C112_plain_partial {params : List String} {c : Call} {ts : List ℕ} {ls : List Arg} (hp : params.Nodup)
    (hl : c.list = none) (hc : c.Legal params) (hconst : hasConst c = false) (hd : (kerasInputs c).Nodup)
    (ha : c.args = ts.map Arg.tensor ++ ls) (hls : ∀ a ∈ ls, a.tensor? = none)
    (hkw : (∀ e ∈ c.kwargs, e.2.tensor? = none) ∨
      (ls = [] ∧ params.filter (tensorKw c) <+: params.drop c.args.length ∧
        (params.filter (tensorKw c)).Pairwise (· ≤ ·))) :
    ∃ c', roundTrip params c = some c' ∧ Same params c c' := by
  refine ⟨_, plain_eq hl hconst hd, ?_⟩
  have hts : c.args.filterMap Arg.tensor? = ts := by
    rw [ha, List.filterMap_append, List.filterMap_map]
    have e1 : ls.filterMap Arg.tensor? = [] := by
      rw [List.filterMap_eq_nil_iff]
      exact hls
    have e2 : ts.filterMap (Arg.tensor? ∘ Arg.tensor) = ts := by
      have : (Arg.tensor? ∘ Arg.tensor) = some := rfl
      rw [this, List.filterMap_some]
    rw [e1, e2, List.append_nil]
  have hlits : c.args.filter (fun a => !a.tensor?.isSome) = ls := by
    rw [ha, List.filter_append]
    have e1 : (ts.map Arg.tensor).filter (fun a => !a.tensor?.isSome) = [] := by
      rw [List.filter_eq_nil_iff]
      intro a h
      obtain ⟨t, -, rfl⟩ := List.mem_map.1 h
      simp [Arg.tensor?]
    rw [e1, List.nil_append, List.filter_eq_self]
    intro a h
    rw [hls a h]
    rfl
  have hin : kerasInputs c = ts ++ (c.kwargs.insertionSort fun a b => a.1 ≤ b.1).filterMap fun e => e.2.tensor? := by
    unfold kerasInputs
    rw [hl, hts]
    rfl
  obtain ⟨hn, hk, hkp⟩ := id hc
  have hpos : c.pos.length = c.args.length := by simp [Call.pos, hl]
  rw [hpos] at hn hkp
  rcases hkw with hkw | ⟨rfl, ⟨r, hpre⟩, hord⟩
  · have e1 : ((c.kwargs.insertionSort fun a b => a.1 ≤ b.1).filterMap fun e => e.2.tensor?) = [] := by
      rw [List.filterMap_eq_nil_iff]
      intro e he
      rw [List.mem_insertionSort] at he
      exact hkw e he
    have e2 : (c.kwargs.filter fun e => !e.2.tensor?.isSome) = c.kwargs := by
      rw [List.filter_eq_self]
      intro e he
      rw [hkw e he]
      rfl
    have e3 : (⟨none, (kerasInputs c).map Arg.tensor ++ c.args.filter (fun a => !a.tensor?.isSome),
        c.kwargs.filter fun e => !e.2.tensor?.isSome⟩ : Call) = c := by
      rw [hin, e1, hlits, e2, List.append_nil, ← ha, ← hl]
    rw [e3]
    exact ⟨hc, fun _ _ => rfl⟩
  · rw [List.append_nil] at ha
    have hkt := kw_tensors hp hk (fun k hk' => List.mem_of_mem_drop (hkp k hk')) hord
    have hnames : params.filterMap (fun k => (dget k c.kwargs).bind Arg.tensor?) =
        (params.filter (tensorKw c)).filterMap (fun k => (dget k c.kwargs).bind Arg.tensor?) := by
      rw [List.filterMap_filter]
      refine List.filterMap_congr fun k _ => ?_
      unfold tensorKw
      cases (dget k c.kwargs).bind Arg.tensor? <;> rfl
    set names := params.filter (tensorKw c) with hnm
    have hname : ∀ k ∈ names, ∃ t, dget k c.kwargs = some (.tensor t) := by
      intro k h
      have := (List.mem_filter.1 h).2
      unfold tensorKw at this
      cases hd' : dget k c.kwargs with
      | none => rw [hd'] at this; cases this
      | some a =>
        rw [hd'] at this
        cases a with
        | tensor t => exact ⟨t, rfl⟩
        | const t => cases this
        | lit t => cases this
    -- the rebuilt arguments
    have hargs : (kerasInputs c).map Arg.tensor ++ c.args.filter (fun a => !a.tensor?.isSome) =
        c.args ++ names.map fun k => (dget k c.kwargs).getD (.lit 0) := by
      rw [hlits, List.append_nil, hin, hkt, hnames, List.map_append, ← ha]
      congr 1
      have : ∀ l : List String, (∀ k ∈ l, ∃ t, dget k c.kwargs = some (.tensor t)) →
          (l.filterMap (fun k => (dget k c.kwargs).bind Arg.tensor?)).map Arg.tensor =
            l.map fun k => (dget k c.kwargs).getD (.lit 0) := by
        intro l
        induction l with
        | nil => intro _; rfl
        | cons k l ih =>
          intro h
          obtain ⟨t, ht⟩ := h k List.mem_cons_self
          rw [List.filterMap_cons_some (by rw [ht]; rfl), List.map_cons, List.map_cons,
            ih fun k hk => h k (List.mem_cons_of_mem _ hk), ht]
          rfl
      exact this names hname
    rw [hargs]
    have hgetn : ∀ i k, names[i]? = some k → params[c.args.length + i]? = some k := by
      intro i k h
      rw [← List.getElem?_drop, ← hpre, List.getElem?_append_left (List.getElem?_eq_some_iff.1 h).1]
      exact h
    have hlen : c.args.length + names.length ≤ params.length := by
      have := congrArg List.length hpre
      rw [List.length_append, List.length_drop] at this
      omega
    have hk2 := hk.sublist (List.filter_sublist (p := fun e : String × Arg => !e.2.tensor?.isSome) |>.map (·.1))
    have hpos' : (⟨none, c.args ++ names.map fun k => (dget k c.kwargs).getD (.lit 0),
        c.kwargs.filter fun e => !e.2.tensor?.isSome⟩ : Call).pos.length = c.args.length + names.length := by
      simp [Call.pos]
    refine ⟨⟨by rw [hpos']; exact hlen, hk2, ?_⟩, ?_⟩
    · intro k h
      rw [hpos']
      obtain ⟨e, he, rfl⟩ := List.mem_map.1 h
      obtain ⟨h1, h2⟩ := List.mem_filter.1 he
      have h3 := (mem_drop hp).1 (hkp e.1 (List.mem_map.2 ⟨e, h1, rfl⟩))
      refine (mem_drop hp).2 ⟨h3.1, ?_⟩
      by_contra hlt
      have hi : params.idxOf e.1 - c.args.length < names.length := by omega
      have h4 := hgetn _ _ (List.getElem?_eq_getElem hi)
      rw [show c.args.length + (params.idxOf e.1 - c.args.length) = params.idxOf e.1 by omega,
        getElem?_idxOf' h3.1, Option.some.injEq] at h4
      obtain ⟨t, ht⟩ := hname e.1 (h4 ▸ List.getElem_mem _)
      rw [dget_of_mem hk (show (e.1, e.2) ∈ c.kwargs from h1)] at ht
      rw [Option.some.inj ht] at h2
      simp [Arg.tensor?] at h2
    · intro k hkm
      unfold Call.bound
      rw [hpos', hpos]
      rcases Nat.lt_or_ge (params.idxOf k) c.args.length with hi | hi
      · rw [if_pos (by omega), if_pos hi]
        simp only [Call.pos, hl, Option.map_none, Option.toList_none, List.nil_append, List.getElem?_map,
          List.getElem?_append_left hi]
      · rw [if_neg (show ¬ params.idxOf k < c.args.length by omega)]
        by_cases hlt : params.idxOf k < c.args.length + names.length
        · rw [if_pos hlt]
          have hi' : params.idxOf k - c.args.length < names.length := by omega
          have h4 := hgetn _ _ (List.getElem?_eq_getElem hi')
          rw [show c.args.length + (params.idxOf k - c.args.length) = params.idxOf k by omega,
            getElem?_idxOf' hkm, Option.some.injEq] at h4
          obtain ⟨t, ht⟩ := hname k (h4 ▸ List.getElem_mem _)
          rw [ht]
          simp only [Call.pos, Option.map_none, Option.toList_none, List.nil_append, List.map_append]
          rw [List.getElem?_append_right (by rw [List.length_map]; exact hi), List.length_map, List.getElem?_map,
            List.getElem?_map, List.getElem?_eq_getElem hi', ← h4, Option.map_some, Option.map_some, ht]
          rfl
        · rw [if_neg hlt, dget_filter _ hk]
          cases hdk : dget k c.kwargs with
          | none => rfl
          | some a =>
            cases a with
            | lit x => rfl
            | const x => rfl
            | tensor t =>
              exfalso
              have hkn : k ∈ names := by
                rw [hnm, List.mem_filter]
                exact ⟨hkm, by unfold tensorKw; rw [hdk]; rfl⟩
              obtain ⟨i, hik⟩ := List.mem_iff_getElem?.1 hkn
              have h5 := idxOf_of_getElem? hp (hgetn i k hik)
              have := (List.getElem?_eq_some_iff.1 hik).1
              omega

/-! ### Examples -/

/-- `tf.image.resize(x, [64, 64], method=...)`. -/
example : ∃ c', roundTrip ["images", "size", "method", "preserve_aspect_ratio", "antialias", "name"]
    ⟨none, [.tensor 7, .lit 1], [("method", .lit 2)]⟩ = some c' ∧
    Same ["images", "size", "method", "preserve_aspect_ratio", "antialias", "name"]
      ⟨none, [.tensor 7, .lit 1], [("method", .lit 2)]⟩ c' :=
  C112_plain_partial (ts := [7]) (ls := [.lit 1]) (by decide) rfl ⟨by decide, by decide, by decide⟩ rfl (by decide) rfl
    (by decide) (Or.inl (by decide))

/-- `tf.clip_by_value(t, clip_value_min=a, clip_value_max=c)` with an array `c`. -/
example : ∃ c', roundTrip ["t", "clip_value_min", "clip_value_max", "name"]
    ⟨none, [.tensor 0], [("clip_value_max", .const ⟨.array, [3], 8⟩), ("clip_value_min", .tensor 1)]⟩ = some c' ∧
    Same ["t", "clip_value_min", "clip_value_max", "name"]
      ⟨none, [.tensor 0], [("clip_value_max", .const ⟨.array, [3], 8⟩), ("clip_value_min", .tensor 1)]⟩ c' :=
  C112_const_partial (by decide) rfl ⟨by decide, by decide, by decide⟩ rfl (by simp)
    (by
      intro k c0 h
      have : k = "clip_value_max" ∧ c0 = ⟨.array, [3], 8⟩ := by simpa using h
      rw [this.2]
      exact ⟨by decide, by decide⟩)
    (by decide +kernel)
    (by
      intro k c0 h
      have : k = "clip_value_max" ∧ c0 = ⟨.array, [3], 8⟩ := by simpa using h
      rw [this.1]
      decide)
    (by decide)

/-- `tf.concat([x, c, y], axis=1)` with an array `c`. -/
example : ∃ c', roundTrip ["values", "axis", "name"]
    ⟨some [.const ⟨.array, [2], 4⟩, .tensor 0, .tensor 1], [.lit 1], []⟩ = some c' ∧
    Same ["values", "axis", "name"] ⟨some [.const ⟨.array, [2], 4⟩, .tensor 0, .tensor 1], [.lit 1], []⟩ c' :=
  C112_list_partial (l := [.const ⟨.array, [2], 4⟩, .tensor 0, .tensor 1]) (by decide) rfl ⟨by decide, by decide, by decide⟩
    (by
      intro c0 h
      have : c0 = ⟨.array, [2], 4⟩ := by simpa using h
      rw [this]
      exact ⟨by decide, by decide⟩)
    (by simp) (by simp) (by simp) (by simp) (by decide)

end MCT.KReader
