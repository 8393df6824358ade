/- C112: functional calls that are rebuilt with other arguments, or not at all. -/
import Verif.KReader.CallPlain

namespace MCT.KReader

theorem not_same {params : List String} {c c' : Call} {k : String} (hk : k ∈ params)
    (h : c'.bound params k ≠ c.bound params k) : ¬ Same params c c' := fun h' => h (h'.2 k hk)

/-- C112 fails: `tf.subtract(1.0, x)` becomes `tf.subtract(x, 1.0)`, and the same for every function whose first argument
is a number. -/
theorem C112_literal_first_violated (p q : String) (params : List String) (x t : ℕ) :
    ∃ c', roundTrip (p :: q :: params) ⟨none, [.lit x, .tensor t], []⟩ = some c' ∧
      (⟨none, [.lit x, .tensor t], []⟩ : Call).bound (p :: q :: params) p = some (.one (.lit x)) ∧
      c'.bound (p :: q :: params) p = some (.one (.tensor t)) ∧
      ¬ Same (p :: q :: params) ⟨none, [.lit x, .tensor t], []⟩ c' := by
  have h : roundTrip (p :: q :: params) ⟨none, [.lit x, .tensor t], []⟩ = some ⟨none, [.tensor t, .lit x], []⟩ := by
    rw [plain_eq (c := ⟨none, [.lit x, .tensor t], []⟩) rfl rfl (show ([t] : List ℕ).Nodup from List.nodup_singleton t)]
    rfl
  have b1 : (⟨none, [.lit x, .tensor t], []⟩ : Call).bound (p :: q :: params) p = some (.one (.lit x)) := by
    simp [Call.bound, Call.pos, Arg.val]
  have b2 : (⟨none, [.tensor t, .lit x], []⟩ : Call).bound (p :: q :: params) p = some (.one (.tensor t)) := by
    simp [Call.bound, Call.pos, Arg.val]
  exact ⟨_, h, b1, b2, not_same List.mem_cons_self (by rw [b1, b2]; simp)⟩

/-- C112 fails: in `tf.clip_by_value(x, clip_value_min=a, clip_value_max=b)` with tensors `a` and `b` the bounds are
swapped. -/
theorem C112_alphabetical_violated : ∃ c', roundTrip ["t", "clip_value_min", "clip_value_max", "name"]
      ⟨none, [.tensor 0], [("clip_value_min", .tensor 1), ("clip_value_max", .tensor 2)]⟩ = some c' ∧
    c'.bound ["t", "clip_value_min", "clip_value_max", "name"] "clip_value_min" = some (.one (.tensor 2)) ∧
    c'.bound ["t", "clip_value_min", "clip_value_max", "name"] "clip_value_max" = some (.one (.tensor 1)) ∧
    ¬ Same ["t", "clip_value_min", "clip_value_max", "name"]
      ⟨none, [.tensor 0], [("clip_value_min", .tensor 1), ("clip_value_max", .tensor 2)]⟩ c' :=
  ⟨⟨none, [.tensor 0, .tensor 2, .tensor 1], []⟩, by decide +kernel, by decide, by decide,
    not_same (k := "clip_value_min") (by decide) (by decide)⟩

/-- C112 fails: a tensor that is given by its keyword becomes the next argument: in
`tf.image.crop_and_resize(x, boxes, [0, 0], crop_size=s)` with a tensor `s`, the third argument becomes `s` and the fourth
becomes `[0, 0]`. -/
theorem C112_keyword_tensor_violated : ∃ c', roundTrip ["image", "boxes", "box_indices", "crop_size", "method"]
      ⟨none, [.tensor 0, .tensor 1, .lit 5], [("crop_size", .tensor 2)]⟩ = some c' ∧
    c'.bound ["image", "boxes", "box_indices", "crop_size", "method"] "box_indices" = some (.one (.tensor 2)) ∧
    c'.bound ["image", "boxes", "box_indices", "crop_size", "method"] "crop_size" = some (.one (.lit 5)) ∧
    ¬ Same ["image", "boxes", "box_indices", "crop_size", "method"]
      ⟨none, [.tensor 0, .tensor 1, .lit 5], [("crop_size", .tensor 2)]⟩ c' :=
  ⟨⟨none, [.tensor 0, .tensor 1, .tensor 2, .lit 5], []⟩, by decide +kernel, by decide, by decide,
    not_same (k := "crop_size") (by decide) (by decide)⟩

/-- C112 fails: a tensor that occurs twice. `tf.clip_by_value(x, y, x)` becomes `tf.clip_by_value(x, x, y)`. -/
theorem C112_repeated_violated : ∃ c', roundTrip ["t", "clip_value_min", "clip_value_max", "name"]
      ⟨none, [.tensor 0, .tensor 1, .tensor 0], []⟩ = some c' ∧
    c'.bound ["t", "clip_value_min", "clip_value_max", "name"] "clip_value_min" = some (.one (.tensor 0)) ∧
    ¬ Same ["t", "clip_value_min", "clip_value_max", "name"] ⟨none, [.tensor 0, .tensor 1, .tensor 0], []⟩ c' :=
  ⟨⟨none, [.tensor 0, .tensor 0, .tensor 1], []⟩, by decide +kernel, by decide,
    not_same (k := "clip_value_max") (by decide) (by decide)⟩

/-- C112 fails: the axis of `tf.stack([x, c], axis=-1)` with an array `c` is lost, so that the default is used: the
second element of the list and the parameter `axis` have the same index. The same holds for the second argument of
every function that gets a list. -/
theorem C112_axis_violated (p q : String) (params : List String) (hpq : p ≠ q) (t x : ℕ) (s : List ℕ) (d : ℕ) :
    ∃ c', roundTrip (p :: q :: params) ⟨some [.tensor t, .const ⟨.array, s, d⟩], [], [(q, .lit x)]⟩ = some c' ∧
      c'.bound (p :: q :: params) p = some (.many [.tensor t, .array s d]) ∧
      c'.bound (p :: q :: params) q = none ∧
      ¬ Same (p :: q :: params) ⟨some [.tensor t, .const ⟨.array, s, d⟩], [], [(q, .lit x)]⟩ c' := by
  have hi : (p :: q :: params).idxOf q = 1 := by
    rw [List.idxOf_cons_ne _ hpq, List.idxOf_cons_self]
  have h : roundTrip (p :: q :: params) ⟨some [.tensor t, .const ⟨.array, s, d⟩], [], [(q, .lit x)]⟩ =
      some ⟨some [.tensor t, .const ⟨.array, s, d⟩], [], []⟩ := by
    have e1 : readCall (p :: q :: params) ⟨some [.tensor t, .const ⟨.array, s, d⟩], [], [(q, .lit x)]⟩ =
        some ⟨[(1, ⟨.array, s, d⟩)], [], [], true, some []⟩ := by
      unfold readCall
      simp only [addArgs, Const.conv, Option.bind_some, addKwargs, Option.map_some, keepKw, dset, List.filter_nil,
        List.nil_append]
      simp [hi, dget, Arg.isConst]
    unfold roundTrip
    rw [e1, Option.bind_some]
    rfl
  refine ⟨_, h, ?_, ?_, ?_⟩
  · simp [Call.bound, Call.pos, Arg.val]
  · simp [Call.bound, Call.pos, hi, dget]
  · refine not_same (k := q) (by simp) ?_
    simp [Call.bound, Call.pos, hi, dget]

/-- C112 fails: the axis of `tf.stack([x, y], axis=c)` with an array or tensor `c` is lost, whatever it is. -/
theorem C112_constant_axis_violated (p q : String) (params : List String) (hpq : p ≠ q) (t u : ℕ) (htu : t ≠ u) (c : Const)
    (hc : c.Safe) :
    ∃ c', roundTrip (p :: q :: params) ⟨some [.tensor t, .tensor u], [], [(q, .const c)]⟩ = some c' ∧
      c'.bound (p :: q :: params) q = none ∧
      ¬ Same (p :: q :: params) ⟨some [.tensor t, .tensor u], [], [(q, .const c)]⟩ c' := by
  have hi : (p :: q :: params).idxOf q = 1 := by
    rw [List.idxOf_cons_ne _ hpq, List.idxOf_cons_self]
  obtain ⟨c', hc', -, -⟩ := hc.conv
  have h : roundTrip (p :: q :: params) ⟨some [.tensor t, .tensor u], [], [(q, .const c)]⟩ =
      some ⟨some [.tensor t, .tensor u], [], []⟩ := by
    have e1 : readCall (p :: q :: params) ⟨some [.tensor t, .tensor u], [], [(q, .const c)]⟩ =
        some ⟨[(1, c')], [], [], true, none⟩ := by
      unfold readCall
      simp only [addArgs, Option.bind_some, addKwargs, hc', keepKw, dset, List.filter_nil,
        List.nil_append]
      simp [hi, dget, Arg.isConst]
    have e2 : edgeOrder [t, u] = [t, u] := edgeOrder_nodup (by simp [htu])
    unfold roundTrip
    rw [e1, Option.bind_some]
    unfold buildCall
    dsimp only
    rw [if_pos rfl, if_neg (by simp)]
    have e3 : kerasInputs ⟨some [.tensor t, .tensor u], [], [(q, .const c)]⟩ = [t, u] := rfl
    rw [e3, e2]
    rfl
  refine ⟨_, h, ?_, ?_⟩
  · simp [Call.bound, Call.pos, hi, dget]
  · refine not_same (k := q) (by simp) ?_
    simp [Call.bound, Call.pos, hi, dget]

/-- C112 fails: an array whose keyword comes after a parameter with its default value is looked up at the wrong place. If
`f(a, b=.., c=..)` is called as `f(x, c=array)`, the model is not built. -/
theorem C112_hole_violated (p q r : String) (params : List String) (hpr : p ≠ r) (hqr : q ≠ r)
    (hr : r ∉ params) (t : ℕ) (s : List ℕ) (d : ℕ) :
    roundTrip (p :: q :: r :: params) ⟨none, [.tensor t], [(r, .const ⟨.array, s, d⟩)]⟩ = none := by
  have hi : (p :: q :: r :: params).idxOf r = 2 := by
    rw [List.idxOf_cons_ne _ hpr, List.idxOf_cons_ne _ hqr, List.idxOf_cons_self]
  have ha : allocsOf (p :: q :: r :: params) ⟨none, [.tensor t], [(r, .const ⟨.array, s, d⟩)]⟩ = [p, r] := by
    have hf : params.filter (fun k => (dget k [(r, Arg.const ⟨.array, s, d⟩)]).isSome) = [] := by
      rw [List.filter_eq_nil_iff]
      intro k hk
      have : r ≠ k := fun h => hr (h ▸ hk)
      rw [dget_cons, if_neg this]
      simp [dget_nil]
    have hrq : r ≠ q := fun h => hqr h.symm
    unfold allocsOf
    simp only [List.length_cons, List.length_nil, Nat.zero_add, List.take_succ_cons, List.take_zero, List.drop_succ_cons,
      List.drop_zero]
    rw [List.filter_cons_of_neg (by simp [dget_cons, dget_nil, hrq]), List.filter_cons_of_pos (by simp [dget_cons]), hf]
    rfl
  unfold roundTrip readCall
  have hrp : r ≠ p := fun h => hpr h.symm
  simp [hasConst, Arg.isConst, ha, addArgs, moveArgs, dset, hrp, hpr, addKwargs, Const.conv, hi, keepKw, dget, Arg.tensor?,
    kerasInputs, edgeOrder, buildCall, fill]

/-- C112 fails: with a tensor after that array, the two are swapped: `f(x, c=array, d=y)` becomes `f(x, c=y, d=array)`. -/
theorem C112_hole_swapped_violated : ∃ c', roundTrip ["a", "b", "c", "d"]
      ⟨none, [.tensor 0], [("c", .const ⟨.array, [3], 9⟩), ("d", .tensor 1)]⟩ = some c' ∧
    c'.bound ["a", "b", "c", "d"] "c" = some (.one (.tensor 1)) ∧
    c'.bound ["a", "b", "c", "d"] "d" = some (.one (.array [3] 9)) ∧
    ¬ Same ["a", "b", "c", "d"] ⟨none, [.tensor 0], [("c", .const ⟨.array, [3], 9⟩), ("d", .tensor 1)]⟩ c' :=
  ⟨⟨none, [], [("a", .tensor 0), ("c", .tensor 1), ("d", .const ⟨.array, [3], 9⟩)]⟩, by decide +kernel, by decide,
    by decide, not_same (k := "c") (by decide) (by decide)⟩

/-- C112 fails: a tensor without dimensions becomes a vector: `tf.gather(x, tf.constant(1))` has one dimension more. -/
theorem C112_scalar_violated : ∃ c', roundTrip ["params", "indices", "validate_indices", "axis", "batch_dims", "name"]
      ⟨none, [.tensor 0, .const ⟨.tensor, [], 1⟩], []⟩ = some c' ∧
    c'.bound ["params", "indices", "validate_indices", "axis", "batch_dims", "name"] "indices" =
      some (.one (.array [1] 1)) ∧
    ¬ Same ["params", "indices", "validate_indices", "axis", "batch_dims", "name"]
      ⟨none, [.tensor 0, .const ⟨.tensor, [], 1⟩], []⟩ c' :=
  ⟨⟨none, [], [("params", .tensor 0), ("indices", .const ⟨.array, [1], 1⟩)]⟩, by decide +kernel, by decide,
    not_same (k := "indices") (by decide) (by decide)⟩

/-- C112 fails: every call with a `tf.Variable` among its arguments is rejected. -/
theorem C112_variable_violated (params : List String) (c : Call) (hl : c.list = none) (s : List ℕ) (d : ℕ)
    (h : Arg.const ⟨.var, s, d⟩ ∈ c.args) : roundTrip params c = none := by
  have key : ∀ (l : List Arg) (i : ℕ) (w : List (ℕ × Const)), Arg.const ⟨.var, s, d⟩ ∈ l → addArgs i l w = none := by
    intro l
    induction l with
    | nil => intro i w h; exact absurd h List.not_mem_nil
    | cons a l ih =>
      intro i w h
      rcases List.mem_cons.1 h with h1 | h1
      · rw [← h1]; rfl
      · cases a with
        | tensor t => rw [addArgs]; exact ih _ _ h1
        | lit t => rw [addArgs]; exact ih _ _ h1
        | const c0 =>
          rw [addArgs]
          cases c0.conv with
          | none => rfl
          | some c' => exact ih _ _ h1
  unfold roundTrip readCall
  rw [hl]
  dsimp only
  rw [key _ _ _ h]
  rfl

end MCT.KReader
