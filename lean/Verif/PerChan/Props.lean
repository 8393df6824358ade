import Verif.PerChan.Model
import Verif.Search.Props

/-!
# C130: per-channel parameters belong to their channel

Specification: `IsIndex` (valid indices) and `channel` (the values at one position along the channel
dimension, in the order of the array) in `Tensor.lean`; `Covers` of C08.
-/

namespace MCT.PerChan

open MCT.Quant MCT.Search MCT.SearchSpec

variable {K : Type} [Field K] [LinearOrder K] [IsStrictOrderedRing K] [FloorRing K]
variable {P : Type} [Zero P]

/-- All the channels along an axis. -/
def channels (x : Tensor K) (ax : ℕ) : List (List K) :=
  (List.range (x.shape.getD ax 0)).map (channel x ax)

theorem channels_length (x : Tensor K) (ax : ℕ) : (channels x ax).length = x.shape.getD ax 0 := by
  simp [channels]

theorem toRows_some_iff (x : Tensor K) (ax : ℕ) (rows : List (List K)) :
    toRows x ax = some rows ↔ x.shape.getD ax 0 ≠ 0 ∧ rows = channels x ax := by
  by_cases h : ax < x.shape.length
  · have hg : x.shape.getD ax 0 = x.shape[ax] := by simp [List.getD_eq_getElem?_getD, h]
    by_cases h0 : x.shape[ax] = 0
    · rw [toRows_zero x ax h h0, hg, h0]; simp
    · rw [toRows_eq x ax h h0]
      simp only [Option.some.injEq, channels, hg]
      constructor
      · intro e; exact ⟨h0, e.symm⟩
      · intro e; exact e.2.symm
  · rw [toRows_none x ax (by omega)]
    simp [List.getD_eq_getElem?_getD, List.getElem?_eq_none (by omega : x.shape.length ≤ ax)]

theorem isIndex_getD {shape idx : List ℕ} (h : IsIndex shape idx) (ax : ℕ) (ha : ax < shape.length) :
    idx.getD ax 0 < shape.getD ax 0 := by
  have hl : ax < idx.length := by rw [h.length_eq]; exact ha
  have := List.Forall₂.get h hl ha
  simpa [List.getD_eq_getElem?_getD, hl, ha] using this

/-- An element belongs to the channel of its position. -/
theorem mem_channel (x : Tensor K) (ax : ℕ) (idx : List ℕ) (h : IsIndex x.shape idx) :
    x.get idx ∈ channel x ax (idx.getD ax 0) :=
  List.mem_map.2 ⟨idx, List.mem_filter.2 ⟨mem_indices.2 h, by simp⟩, rfl⟩

theorem searchAxes_spec {vec : ℕ → List (List K) → Option (List P × K)} {x : Tensor K} {axes : List ℕ}
    {p : Tensor P} {ax : ℕ} (h : searchAxes vec x axes = some (p, ax)) :
    ax ∈ axes ∧ x.shape.getD ax 0 ≠ 0 ∧ ∃ v e, vec ax (channels x ax) = some (v, e) ∧
      p = ofChannels x.shape.length ax v 0 ∧
      ∀ a ∈ axes, ∃ v' e', vec a (channels x a) = some (v', e') ∧ e ≤ e' := by
  unfold searchAxes at h
  obtain ⟨rs, hrs, h⟩ := Option.bind_eq_some_iff.1 h
  obtain ⟨⟨i, m⟩, hi, h⟩ := Option.bind_eq_some_iff.1 h
  obtain ⟨r, hr, h⟩ := Option.bind_eq_some_iff.1 h
  obtain ⟨a, ha, h⟩ := Option.map_eq_some_iff.1 h
  have hF := (Common.mapM_some_iff _ _ _).1 hrs
  obtain ⟨hil, hv, hmin, _⟩ := argminV_spec _ _ _ hi
  have hrl : i < rs.length := by simpa using hil
  have hal : i < axes.length := by rw [hF.length_eq]; exact hrl
  have key : ∀ j (hj : j < axes.length), x.shape.getD axes[j] 0 ≠ 0 ∧ ∃ v e,
      vec axes[j] (channels x axes[j]) = some (v, e) ∧
      rs[j]'(by rw [← hF.length_eq]; exact hj) = (ofChannels x.shape.length axes[j] v 0, e) := by
    intro j hj
    have hj' : j < rs.length := by rw [← hF.length_eq]; exact hj
    have := List.Forall₂.get hF hj hj'
    simp only [List.get_eq_getElem] at this
    obtain ⟨rows, h1, h2⟩ := Option.bind_eq_some_iff.1 this
    obtain ⟨⟨v, e⟩, h3, h4⟩ := Option.map_eq_some_iff.1 h2
    obtain ⟨h5, rfl⟩ := (toRows_some_iff _ _ _).1 h1
    exact ⟨h5, v, e, h3, h4.symm⟩
  have hr' : rs[i] = r := by
    rw [List.getElem?_eq_getElem hrl] at hr; simpa using hr
  have ha' : axes[i] = a := by
    rw [List.getElem?_eq_getElem hal] at ha; simpa using ha
  simp only [Prod.mk.injEq] at h
  obtain ⟨hp, rfl⟩ := h
  obtain ⟨h5, v, e, h6, h7⟩ := key i hal
  subst ha'
  refine ⟨List.getElem_mem _, h5, v, e, h6, ?_, ?_⟩
  · rw [← hp, ← hr', h7]
  · intro b hb
    obtain ⟨j, hj, rfl⟩ := List.getElem_of_mem hb
    obtain ⟨_, v', e', h8, h9⟩ := key j hj
    refine ⟨v', e', h8, ?_⟩
    have hj' : j < rs.length := by rw [← hF.length_eq]; exact hj
    have h10 := hmin j (by simpa using hj')
    rw [List.getElem_map] at h10 hv
    rw [h9] at h10
    rw [h7] at hv
    simpa [← hv] using h10

/-- C130. Whatever a search computes from the channels, one parameter for each: the element at every
index is quantized with the parameter of the channel it lies in, the flattened parameters are those of
the channels in their order, and no axis that was tried has a smaller error. -/
theorem C130_channel (vec : ℕ → List (List K) → Option (List P × K))
    (hvec : ∀ a rows v e, vec a rows = some (v, e) → v.length = rows.length) (x : Tensor K)
    (axes : List ℕ) (p : Tensor P) (ax : ℕ) (h : searchAxes vec x axes = some (p, ax)) :
    ax ∈ axes ∧ ax < x.shape.length ∧ ∃ v e, vec ax (channels x ax) = some (v, e) ∧
      ravel p = v ∧ p.shape.length = x.shape.length ∧
      (∀ idx, IsIndex x.shape idx → v[idx.getD ax 0]? = some (bcast p idx)) ∧
      ∀ a ∈ axes, ∃ v' e', vec a (channels x a) = some (v', e') ∧ e ≤ e' := by
  obtain ⟨h1, h2, v, e, h3, rfl, h5⟩ := searchAxes_spec h
  have hax : ax < x.shape.length := by
    by_contra hc
    exact h2 (by simp [List.getD_eq_getElem?_getD, List.getElem?_eq_none (Nat.le_of_not_lt hc)])
  refine ⟨h1, hax, v, e, h3, ravel_ofChannels _ _ _ _ hax, by simp [ofChannels, outputShape], ?_, h5⟩
  intro idx hi
  have hl : v.length = x.shape.getD ax 0 := by rw [hvec _ _ _ _ h3, channels_length]
  have hlt : idx.getD ax 0 < v.length := by rw [hl]; exact isIndex_getD hi ax hax
  rw [bcast_ofChannels _ _ _ _ _ hi.length_eq hax hlt]
  rw [List.getD_eq_getElem?_getD (l := v), List.getElem?_eq_getElem hlt]; rfl

theorem rowwise_length {sel : List K → Option P} {err : ℕ → List P → K} {a : ℕ} {rows : List (List K)}
    {v : List P} {e : K} (h : rowwise sel err a rows = some (v, e)) : v.length = rows.length := by
  unfold rowwise at h
  obtain ⟨w, hw, h⟩ := Option.map_eq_some_iff.1 h
  simp only [Prod.mk.injEq] at h
  rw [← h.1]
  exact ((Common.mapM_some_iff _ _ _).1 hw).length_eq.symm

theorem channels_getElem? (x : Tensor K) (ax c : ℕ) (h : c < x.shape.getD ax 0) :
    (channels x ax)[c]? = some (channel x ax c) := by
  rw [List.getElem?_eq_getElem (by rw [channels_length]; exact h)]
  simp [channels]

theorem rowwise_read {sel : List K → Option P} {err : ℕ → List P → K} {x : Tensor K} {axes : List ℕ}
    {p : Tensor P} {ax : ℕ} (h : searchAxes (rowwise sel err) x axes = some (p, ax)) (idx : List ℕ)
    (hi : IsIndex x.shape idx) : sel (channel x ax (idx.getD ax 0)) = some (bcast p idx) := by
  obtain ⟨_, hax, v, e, h3, _, _, h6, _⟩ :=
    C130_channel _ (fun _ _ _ _ => rowwise_length) x axes p ax h
  have h7 := h6 idx hi
  unfold rowwise at h3
  obtain ⟨w, hw, h3⟩ := Option.map_eq_some_iff.1 h3
  simp only [Prod.mk.injEq] at h3
  obtain ⟨rfl, _⟩ := h3
  have hF := (Common.mapM_some_iff _ _ _).1 hw
  obtain ⟨hl, hv⟩ := List.getElem?_eq_some_iff.1 h7
  have hl' : idx.getD ax 0 < (channels x ax).length := by rw [hF.length_eq]; exact hl
  have := List.Forall₂.get hF hl' hl
  simp only [List.get_eq_getElem] at this
  rw [hv] at this
  rw [← this]
  simp [channels]

/-- C130. Without clipping, per channel: every element of the array lies in the range of the threshold
it is quantized with, and quantization moves it by at most half a step, whichever axis is used; the
thresholds depend on the values of the channel only. -/
theorem C130_no_clipping (err : ℕ → List K → K) (x : Tensor K) (ax : Option ℕ) (n : ℕ) (minThr : K)
    (hn : 2 ≤ n) (hmin : 0 < minThr) (p : Value K) (ax' : Option ℕ)
    (h : potNoClipSelect err x true ax n minThr = some (p, ax') ∨
      symNoClipSelect err x true ax n minThr = some (p, ax')) :
    ∃ a, ax' = some a ∧ a < x.shape.length ∧ (∀ b, ax = some b → a = b) ∧
      ∀ idx, IsIndex x.shape idx → Covers (p.read idx) n (channel x a (idx.getD a 0)) ∧
        ∃ q, quantizeSym x p n idx = some q ∧ |q - x.get idx| ≤ (p.read idx / 2 ^ (n - 1)) / 2 := by
  have main : ∀ sel : List K → Option K, (∀ xs t, sel xs = some t →
        potNoClip xs n minThr = some t ∨ symNoClip xs n minThr = some t) →
      ∀ r, searchAxes (rowwise sel err) x (axesOf x ax) = some r → p = .array r.1 → ax' = some r.2 →
      ∃ a, ax' = some a ∧ a < x.shape.length ∧ (∀ b, ax = some b → a = b) ∧
      ∀ idx, IsIndex x.shape idx → Covers (p.read idx) n (channel x a (idx.getD a 0)) ∧
        ∃ q, quantizeSym x p n idx = some q ∧ |q - x.get idx| ≤ (p.read idx / 2 ^ (n - 1)) / 2 := by
    rintro sel hsel ⟨t, a⟩ hr rfl rfl
    obtain ⟨hm, hax, _⟩ := C130_channel _ (fun _ _ _ _ => rowwise_length) x _ t a hr
    refine ⟨a, rfl, hax, ?_, ?_⟩
    · rintro b rfl
      simpa [axesOf] using hm
    · intro idx hi
      have h1 := rowwise_read hr idx hi
      have hmem := mem_channel x a idx hi
      obtain ⟨_, h2, h3⟩ := C08_no_clipping _ n minThr (List.ne_nil_of_mem hmem) hn hmin _ (hsel _ _ h1)
      exact ⟨h2, h3 _ hmem⟩
  rcases h with h | h
  · unfold potNoClipSelect at h
    rw [if_pos rfl] at h
    obtain ⟨r, hr, h⟩ := Option.map_eq_some_iff.1 h
    simp only [Prod.mk.injEq] at h
    exact main _ (fun xs t e => Or.inl e) r hr h.1.symm h.2.symm
  · unfold symNoClipSelect at h
    rw [if_pos rfl] at h
    obtain ⟨r, hr, h⟩ := Option.map_eq_some_iff.1 h
    simp only [Prod.mk.injEq] at h
    exact main _ (fun xs t e => Or.inr e) r hr h.1.symm h.2.symm

/-- C130. The uniform range of an element, without clipping, is that of its channel. -/
theorem C130_uniform (err : ℕ → List (K × K) → K) (x : Tensor K) (ax : Option ℕ) (n : ℕ)
    (lo hi : Value K) (ax' : Option ℕ)
    (h : uniNoClipSelect err x true ax n = some (lo, hi, ax')) :
    ∃ a, ax' = some a ∧ a < x.shape.length ∧ (∀ b, ax = some b → a = b) ∧
      ∀ idx, IsIndex x.shape idx →
        uniNoClip (channel x a (idx.getD a 0)) n false = some (lo.read idx, hi.read idx) := by
  unfold uniNoClipSelect at h
  rw [if_pos rfl] at h
  obtain ⟨⟨t, a⟩, hr, h⟩ := Option.map_eq_some_iff.1 h
  simp only [Prod.mk.injEq] at h
  obtain ⟨rfl, rfl, rfl⟩ := h
  obtain ⟨hm, hax, _⟩ := C130_channel _ (fun _ _ _ _ => rowwise_length) x _ t a hr
  refine ⟨a, rfl, hax, ?_, ?_⟩
  · rintro b rfl
    simpa [axesOf] using hm
  · intro idx hi
    rw [rowwise_read hr idx hi]
    rfl

theorem potVec_length {err : List K → List (Option K) → K → K} {n nIter : ℕ} {minThr : K} {s : Bool}
    {a : ℕ} {rows : List (List K)} {v : List K} {e : K}
    (h : potVec err n nIter minThr s a rows = some (v, e)) : v.length = rows.length := by
  unfold potVec potSearchPerChannel at h
  rcases hm : rows.mapM fun xs => potSearchChannel err xs n nIter minThr s with _ | rs
  · rw [hm] at h; simp at h
  · rw [hm] at h
    simp only [Option.some.injEq, Prod.mk.injEq] at h
    rw [← h.1, List.length_map]
    exact ((Common.mapM_some_iff _ _ _).1 hm).length_eq.symm

/-- C130. The power-of-two search: the threshold of an element is the one found on the values of its
channel alone. -/
theorem C130_search (errC : List K → List (Option K) → K → K) (errT : List (Option K) → List K → K → K)
    (x : Tensor K) (ax : Option ℕ) (n nIter : ℕ) (minThr : K) (p : Value K) (ax' : Option ℕ)
    (h : potSearchSelect errC errT x true ax n nIter minThr = some (p, ax')) :
    ∃ a, ax' = some a ∧ a < x.shape.length ∧ (∀ b, ax = some b → a = b) ∧
      ∀ idx, IsIndex x.shape idx → ∃ e,
        potSearchChannel errC (channel x a (idx.getD a 0)) n nIter minThr true =
          some (p.read idx, e) := by
  unfold potSearchSelect at h
  rw [if_pos rfl] at h
  obtain ⟨⟨t, a⟩, hr, h⟩ := Option.map_eq_some_iff.1 h
  simp only [Prod.mk.injEq] at h
  obtain ⟨rfl, rfl⟩ := h
  obtain ⟨hm, hax, v, e, h3, _, _, h6, _⟩ :=
    C130_channel _ (fun _ _ _ _ => potVec_length) x _ t a hr
  refine ⟨a, rfl, hax, ?_, ?_⟩
  · rintro b rfl
    simpa [axesOf] using hm
  · intro idx hi
    have h7 := h6 idx hi
    unfold potVec potSearchPerChannel at h3
    rcases hm' : (channels x a).mapM fun xs => potSearchChannel errC xs n nIter minThr true with _ | rs
    · rw [hm'] at h3; simp at h3
    · rw [hm'] at h3
      simp only [Option.some.injEq, Prod.mk.injEq] at h3
      obtain ⟨rfl, _⟩ := h3
      have hF := (Common.mapM_some_iff _ _ _).1 hm'
      obtain ⟨hl, hv⟩ := List.getElem?_eq_some_iff.1 h7
      have hl2 : idx.getD a 0 < rs.length := by simpa using hl
      have hl' : idx.getD a 0 < (channels x a).length := by rw [hF.length_eq]; exact hl2
      have := List.Forall₂.get hF hl' hl2
      simp only [List.get_eq_getElem] at this
      rw [List.getElem_map] at hv
      refine ⟨rs[idx.getD a 0].2, ?_⟩
      rw [show channel x a (idx.getD a 0) = (channels x a)[idx.getD a 0] by simp [channels], this]
      rw [Value.read, ← hv]

theorem mapM_isSome_iff {α β : Type} (f : α → Option β) (l : List α) :
    (l.mapM f).isSome ↔ ∀ a ∈ l, (f a).isSome := by
  induction l with
  | nil => simp
  | cons a l ih =>
    rw [List.mapM_cons]
    rcases ha : f a with _ | b
    · simp [ha]
    · rcases hl : l.mapM f with _ | r
      · rw [hl] at ih
        simp [ha] at ih ⊢
        exact ih
      · rw [hl] at ih
        simp [ha] at ih ⊢
        exact ih

theorem searchAxes_isSome_iff (vec : ℕ → List (List K) → Option (List P × K)) (x : Tensor K)
    (axes : List ℕ) : (searchAxes vec x axes).isSome ↔
      axes ≠ [] ∧ ∀ a ∈ axes, x.shape.getD a 0 ≠ 0 ∧ (vec a (channels x a)).isSome := by
  have h0 : ∀ a, ((toRows x a).bind fun rows => (vec a rows).map fun r =>
      (ofChannels x.shape.length a r.1 (0 : P), r.2)).isSome ↔
      x.shape.getD a 0 ≠ 0 ∧ (vec a (channels x a)).isSome := by
    intro a
    rcases hr : toRows x a with _ | rows
    · have : x.shape.getD a 0 = 0 := by
        by_contra hc
        have := (toRows_some_iff x a (channels x a)).2 ⟨hc, rfl⟩
        rw [hr] at this; simp at this
      rw [this]; simp
    · obtain ⟨h1, rfl⟩ := (toRows_some_iff x a rows).1 hr
      rw [Option.bind_some, Option.isSome_map]
      exact ⟨fun h => ⟨h1, h⟩, fun h => h.2⟩
  have h1 := mapM_isSome_iff (fun ax => (toRows x ax).bind fun rows => (vec ax rows).map fun r =>
    (ofChannels x.shape.length ax r.1 (0 : P), r.2)) axes
  have h2 : (∀ a ∈ axes, ((toRows x a).bind fun rows => (vec a rows).map fun r =>
      (ofChannels x.shape.length a r.1 (0 : P), r.2)).isSome) ↔
      ∀ a ∈ axes, x.shape.getD a 0 ≠ 0 ∧ (vec a (channels x a)).isSome :=
    forall₂_congr fun a _ => h0 a
  rw [← h2, ← h1]
  unfold searchAxes
  generalize hm : (axes.mapM fun ax => (toRows x ax).bind fun rows => (vec ax rows).map fun r =>
    (ofChannels x.shape.length ax r.1 (0 : P), r.2)) = o
  cases o with
  | none => simp
  | some rs =>
    have hl := ((Common.mapM_some_iff _ _ _).1 hm).length_eq
    rw [Option.bind_some]
    rcases ha : argminV (rs.map Prod.snd) with _ | ⟨i, m⟩
    · rw [argminV_none] at ha
      have : rs = [] := by simpa using ha
      subst this
      simp only [List.length_nil, List.length_eq_zero_iff] at hl
      simp [hl]
    · obtain ⟨hi, _⟩ := argminV_spec _ _ _ ha
      have hi' : i < rs.length := by simpa using hi
      have : axes ≠ [] := by rintro rfl; simp at hl; omega
      simp [List.getElem?_eq_getElem hi', List.getElem?_eq_getElem (show i < axes.length by omega), this]

theorem channel_ne_nil_iff (x : Tensor K) (ax c : ℕ) (h : ax < x.shape.length) (hc : c < x.shape[ax]) :
    channel x ax c ≠ [] ↔ ∀ d ∈ x.shape, d ≠ 0 := by
  have h1 : (channel x ax c).length = (x.shape.eraseIdx ax).prod := by
    unfold channel
    rw [filter_indices _ _ _ h hc]; simp [length_indices]
  have h2 : x.shape.prod = x.shape[ax] * (x.shape.eraseIdx ax).prod := by
    rw [List.mul_prod_eraseIdx]
    exact fun _ _ => Commute.all _ _
  rw [← List.length_pos_iff, h1, Nat.pos_iff_ne_zero]
  have h3 : x.shape[ax] ≠ 0 := by omega
  have h4 : x.shape.prod ≠ 0 ↔ ∀ d ∈ x.shape, d ≠ 0 := by
    rw [Ne, List.prod_eq_zero_iff]
    exact ⟨fun h d hd e => h (e ▸ hd), fun h he => h 0 he rfl⟩
  rw [← h4, h2, Ne, Ne, Nat.mul_eq_zero]
  tauto

theorem rowwise_isSome_iff (sel : List K → Option P) (hsel : ∀ xs, (sel xs).isSome ↔ xs ≠ [])
    (err : ℕ → List P → K) (x : Tensor K) (a : ℕ) (ha : x.shape.getD a 0 ≠ 0) :
    (rowwise sel err a (channels x a)).isSome ↔ ∀ d ∈ x.shape, d ≠ 0 := by
  have hax : a < x.shape.length := by
    by_contra hc
    exact ha (by simp [List.getD_eq_getElem?_getD, List.getElem?_eq_none (Nat.le_of_not_lt hc)])
  have hg : x.shape.getD a 0 = x.shape[a] := by simp [List.getD_eq_getElem?_getD, hax]
  unfold rowwise
  rw [Option.isSome_map, mapM_isSome_iff]
  simp only [hsel, channels, List.mem_map, List.mem_range, forall_exists_index, and_imp,
    forall_apply_eq_imp_iff₂, hg]
  constructor
  · intro h
    exact (channel_ne_nil_iff x a 0 hax (by omega)).1 (h 0 (by omega))
  · intro h c hc
    exact (channel_ne_nil_iff x a c hax hc).2 h

theorem noClip_isSome_iff (xs : List K) (n : ℕ) (minThr : K) (hn : 1 ≤ n) :
    ((potNoClip xs n minThr).isSome ↔ xs ≠ []) ∧ ((symNoClip xs n minThr).isSome ↔ xs ≠ []) := by
  by_cases h : xs = []
  · subst h
    simp [potNoClip, symNoClip, tensorMaxOf, npMin]
  · obtain ⟨m, hm, _⟩ := tensorMaxOf_covers h hn
    simp [potNoClip, symNoClip, hm, h]

/-- C130. The power-of-two search per tensor: every element is given one threshold, the first of `2T`, `T`, `T/2`, … whose
signed quantization of all the elements has the smallest error, and it is not below the minimum. -/
theorem C130_search_tensor (errC : List K → List (Option K) → K → K) (errT : List (Option K) → List K → K → K)
    (x : Tensor K) (ax : Option ℕ) (n nIter : ℕ) (minThr : K) (hx : ravel x ≠ []) (hn : 1 ≤ n) (hit : 1 ≤ nIter)
    (hmin : 0 < minThr) :
    ∃ (p : Value K) (T : K) (i : ℕ), potSearchSelect errC errT x false ax n nIter minThr = some (p, ax) ∧ MCT.QuantSpec.IsPow2 T ∧
      minThr ≤ T ∧ (2 ≤ n → LeastCoveringPow2 T minThr n (ravel x)) ∧
      FirstArgmin (fun j => errT ((ravel x).map fun v => quantizeTensor v (2 * T / 2 ^ j) n true) (ravel x)
        (2 * T / 2 ^ j)) nIter i ∧ ∀ idx, p.read idx = max (2 * T / 2 ^ i) minThr := by
  obtain ⟨T, i, t, e, h1, h2, h3, _, h4, h5, h6, _⟩ := MCT.Search.C07_per_tensor errT (ravel x) n nIter minThr true hx hn
    hit hmin
  refine ⟨.array { shape := List.replicate x.shape.length 1, get := fun _ => t }, T, i, ?_, h2, h3, h4, h5, fun idx => ?_⟩
  · unfold potSearchSelect
    rw [if_neg (by simp), h1]
    rfl
  · rw [← h6]; rfl

/-- C130. Exactly when the selection per channel without clipping succeeds: every dimension has to be
positive, the axis has to exist, and with no axis given there has to be a dimension. -/
theorem C130_succeeds_iff (err : ℕ → List K → K) (x : Tensor K) (ax : Option ℕ) (n : ℕ) (hn : 1 ≤ n)
    (minThr : K) :
    ((potNoClipSelect err x true ax n minThr).isSome ↔
      (∀ d ∈ x.shape, d ≠ 0) ∧ (∀ a, ax = some a → a < x.shape.length) ∧ (ax = none → x.shape ≠ [])) ∧
    ((symNoClipSelect err x true ax n minThr).isSome ↔
      (∀ d ∈ x.shape, d ≠ 0) ∧ (∀ a, ax = some a → a < x.shape.length) ∧ (ax = none → x.shape ≠ [])) := by
  have key : ∀ sel : List K → Option K, (∀ xs, (sel xs).isSome ↔ xs ≠ []) →
      ((searchAxes (rowwise sel err) x (axesOf x ax)).isSome ↔ (∀ d ∈ x.shape, d ≠ 0) ∧
        (∀ a, ax = some a → a < x.shape.length) ∧ (ax = none → x.shape ≠ [])) := by
    intro sel hsel
    rw [searchAxes_isSome_iff]
    have hlt : ∀ a, x.shape.getD a 0 ≠ 0 → a < x.shape.length := by
      intro a ha
      by_contra hc
      exact ha (by simp [List.getD_eq_getElem?_getD, List.getElem?_eq_none (Nat.le_of_not_lt hc)])
    have hpos : (∀ d ∈ x.shape, d ≠ 0) → ∀ a, a < x.shape.length → x.shape.getD a 0 ≠ 0 := by
      intro h a ha
      rw [show x.shape.getD a 0 = x.shape[a] by simp [List.getD_eq_getElem?_getD, ha]]
      exact h _ (List.getElem_mem _)
    cases ax with
    | some a =>
      simp only [axesOf, ne_eq, List.cons_ne_self, not_false_eq_true, List.mem_singleton,
        forall_eq, Option.some.injEq, reduceCtorEq, false_imp_iff, and_true, true_and, forall_eq']
      constructor
      · rintro ⟨h1, h2⟩
        exact ⟨(rowwise_isSome_iff sel hsel err x a h1).1 h2, hlt a h1⟩
      · rintro ⟨h1, h2⟩
        exact ⟨hpos h1 a h2, (rowwise_isSome_iff sel hsel err x a (hpos h1 a h2)).2 h1⟩
    | none =>
      simp only [axesOf, List.mem_range, reduceCtorEq, false_imp_iff, implies_true, true_and,
        true_imp_iff]
      rw [Ne, List.range_eq_nil, List.length_eq_zero_iff]
      constructor
      · rintro ⟨h1, h2⟩
        refine ⟨?_, h1⟩
        have h3 := h2 0 (List.length_pos_iff.2 h1)
        exact (rowwise_isSome_iff sel hsel err x 0 h3.1).1 h3.2
      · rintro ⟨h1, h2⟩
        refine ⟨h2, fun a ha => ⟨hpos h1 a ha, (rowwise_isSome_iff sel hsel err x a (hpos h1 a ha)).2 h1⟩⟩
  constructor
  · unfold potNoClipSelect
    rw [if_pos rfl, Option.isSome_map]
    exact key _ fun xs => (noClip_isSome_iff xs n minThr hn).1
  · unfold symNoClipSelect
    rw [if_pos rfl, Option.isSome_map]
    exact key _ fun xs => (noClip_isSome_iff xs n minThr hn).2

/-- C130 is false of the code when parameters per channel are requested for an attribute with fewer
dimensions than the axis of the kernel needs: the axis of the kernel is used for every attribute of the
layer (node_quantization_config.py:440), so that any such array is refused, for example the bias of a
Keras convolution (axis 3). -/
theorem C130_bias_violated (vec : ℕ → List (List K) → Option (List P × K)) (x : Tensor K) (a : ℕ)
    (h : x.shape.length ≤ a) : searchAxes vec x (axesOf x (some a)) = none := by
  rcases hs : searchAxes vec x (axesOf x (some a)) with _ | ⟨p, b⟩
  · rfl
  · obtain ⟨h1, h2, _⟩ := searchAxes_spec hs
    have hb : b = a := by simpa [axesOf] using h1
    subst hb
    exact absurd (by simp [List.getD_eq_getElem?_getD, List.getElem?_eq_none h]) h2

/-! ### Export -/

/-- The parameters selected for an array, per channel or per tensor, by one of the methods with
thresholds. -/
def Selected (x : Tensor K) (perChannel : Bool) (n : ℕ) (p : Value K) (ax' : Option ℕ) : Prop :=
  ∃ (errA : ℕ → List K → K) (errC : List K → List (Option K) → K → K)
    (errT : List (Option K) → List K → K → K) (ax : Option ℕ) (nIter : ℕ) (minThr : K),
    potNoClipSelect errA x perChannel ax n minThr = some (p, ax') ∨
    symNoClipSelect errA x perChannel ax n minThr = some (p, ax') ∨
    potSearchSelect errC errT x perChannel ax n nIter minThr = some (p, ax')

/-- The per-channel parameters read at an index are the exported entry. -/
theorem entry_channel (vec : ℕ → List (List K) → Option (List K × K))
    (hvec : ∀ a rows v e, vec a rows = some (v, e) → v.length = rows.length) (x : Tensor K)
    (axes : List ℕ) (p : Tensor K) (ax : ℕ) (h : searchAxes vec x axes = some (p, ax)) (idx : List ℕ)
    (hi : IsIndex x.shape idx) : entry (ravel p) true (some ax) idx = bcast p idx := by
  obtain ⟨_, _, v, e, _, h4, _, h6, _⟩ := C130_channel vec hvec x axes p ax h
  rw [h4]
  unfold entry
  rw [if_pos rfl, Option.getD_some, List.getD_eq_getElem?_getD, h6 idx hi]; rfl

/-- C130. The exported quantizer computes what the library computed with the selected parameters, in
both frameworks, unless the threshold is a Python number. -/
theorem C130_export (fw : Framework) (x : Tensor K) (perChannel : Bool) (n : ℕ) (p : Value K)
    (ax : Option ℕ) (h : Selected x perChannel n p ax) (hp : ∀ v, p ≠ .pyFloat v) :
    ∃ a, symArgs fw n perChannel p ax = some a ∧ a.numBits = n ∧ a.perChannel = perChannel ∧
      (perChannel = true → ∃ c, ax = some c ∧ c < x.shape.length ∧
        a.threshold.length = x.shape.getD c 0) ∧
      (fw = .keras → perChannel = true → a.inputRank = some x.shape.length) ∧
      ∀ idx, IsIndex x.shape idx → exportedSym a x idx = quantizeSym x p n idx := by
  have base : ∀ t : Tensor K, symArgs fw n perChannel (.array t) ax = some
      { numBits := n, threshold := ravel t, perChannel := perChannel, channelAxis := ax,
        inputRank := if fw = .keras then some t.shape.length else none } := by
    intro t; cases fw <;> rfl
  have chan : ∀ (vec : ℕ → List (List K) → Option (List K × K)),
      (∀ a rows v e, vec a rows = some (v, e) → v.length = rows.length) → perChannel = true →
      ∀ axes (r : Tensor K × ℕ), searchAxes vec x axes = some r → p = .array r.1 → ax = some r.2 →
      ∃ a, symArgs fw n perChannel p ax = some a ∧ a.numBits = n ∧ a.perChannel = perChannel ∧
      (perChannel = true → ∃ c, ax = some c ∧ c < x.shape.length ∧
        a.threshold.length = x.shape.getD c 0) ∧
      (fw = .keras → perChannel = true → a.inputRank = some x.shape.length) ∧
      ∀ idx, IsIndex x.shape idx → exportedSym a x idx = quantizeSym x p n idx := by
    rintro vec hvec rfl axes ⟨t, c⟩ hs rfl rfl
    obtain ⟨_, hc, v, e, h3, h4, h5, _, _⟩ := C130_channel vec hvec x axes t c hs
    refine ⟨_, base t, rfl, rfl, fun _ => ⟨c, rfl, hc, ?_⟩, ?_, ?_⟩
    · rw [h4, hvec _ _ _ _ h3, channels_length]
    · rintro rfl _; simp [h5]
    · intro idx hi
      simp only [exportedSym, quantizeSym, Value.read]
      rw [entry_channel vec hvec x axes t c hs idx hi]
  have scal : ∀ v, perChannel = false → p = .npScalar v →
      ∃ a, symArgs fw n perChannel p ax = some a ∧ a.numBits = n ∧ a.perChannel = perChannel ∧
      (perChannel = true → ∃ c, ax = some c ∧ c < x.shape.length ∧
        a.threshold.length = x.shape.getD c 0) ∧
      (fw = .keras → perChannel = true → a.inputRank = some x.shape.length) ∧
      ∀ idx, IsIndex x.shape idx → exportedSym a x idx = quantizeSym x p n idx := by
    rintro v rfl rfl
    refine ⟨{ numBits := n, threshold := [v], perChannel := false, channelAxis := ax,
              inputRank := if fw = .keras then some 0 else none }, by cases fw <;> rfl, rfl, rfl,
      by simp, by simp, ?_⟩
    intro idx _
    simp [exportedSym, quantizeSym, Value.read, entry]
  obtain ⟨errA, errC, errT, ax0, nIter, minThr, h⟩ := h
  cases perChannel with
  | true =>
    rcases h with h | h | h
    · unfold potNoClipSelect at h
      rw [if_pos rfl] at h
      obtain ⟨r, hr, h⟩ := Option.map_eq_some_iff.1 h
      simp only [Prod.mk.injEq] at h
      exact chan _ (fun _ _ _ _ => rowwise_length) rfl _ r hr h.1.symm h.2.symm
    · unfold symNoClipSelect at h
      rw [if_pos rfl] at h
      obtain ⟨r, hr, h⟩ := Option.map_eq_some_iff.1 h
      simp only [Prod.mk.injEq] at h
      exact chan _ (fun _ _ _ _ => rowwise_length) rfl _ r hr h.1.symm h.2.symm
    · unfold potSearchSelect at h
      rw [if_pos rfl] at h
      obtain ⟨r, hr, h⟩ := Option.map_eq_some_iff.1 h
      simp only [Prod.mk.injEq] at h
      exact chan _ (fun _ _ _ _ => potVec_length) rfl _ r hr h.1.symm h.2.symm
  | false =>
    rcases h with h | h | h
    · unfold potNoClipSelect at h
      rw [if_neg (by simp)] at h
      obtain ⟨r, hr, h⟩ := Option.map_eq_some_iff.1 h
      simp only [Prod.mk.injEq] at h
      exact scal r rfl h.1.symm
    · unfold symNoClipSelect at h
      rw [if_neg (by simp)] at h
      obtain ⟨r, hr, h⟩ := Option.map_eq_some_iff.1 h
      simp only [Prod.mk.injEq] at h
      obtain ⟨h, _⟩ := h
      unfold pyMax at h
      split at h
      · exact scal r rfl h.symm
      · exact absurd h.symm (hp _)
    · unfold potSearchSelect at h
      rw [if_neg (by simp)] at h
      obtain ⟨r, hr, h⟩ := Option.map_eq_some_iff.1 h
      simp only [Prod.mk.injEq] at h
      obtain ⟨rfl, rfl⟩ := h
      refine ⟨_, base _, rfl, rfl, by simp, by simp, ?_⟩
      intro idx _
      simp [exportedSym, quantizeSym, Value.read, entry, ravel, indices_replicate_one, bcast]

/-- C130. The exported uniform quantizer computes what the library computed with the selected ranges. -/
theorem C130_export_uniform (fw : Framework) (err : ℕ → List (K × K) → K) (x : Tensor K)
    (perChannel : Bool) (ax : Option ℕ) (n : ℕ) (lo hi : Value K) (ax' : Option ℕ)
    (h : uniNoClipSelect err x perChannel ax n = some (lo, hi, ax')) :
    ∃ a, uniArgs fw n perChannel lo hi ax' = some a ∧ a.numBits = n ∧ a.perChannel = perChannel ∧
      ∀ idx, IsIndex x.shape idx → exportedUni a x idx = quantizeUni x lo hi n idx := by
  unfold uniNoClipSelect at h
  cases perChannel with
  | true =>
    rw [if_pos rfl] at h
    obtain ⟨⟨t, c⟩, hr, h⟩ := Option.map_eq_some_iff.1 h
    simp only [Prod.mk.injEq] at h
    obtain ⟨rfl, rfl, rfl⟩ := h
    obtain ⟨_, hc, v, e, h3, h4, h5, h6, _⟩ :=
      C130_channel _ (fun _ _ _ _ => rowwise_length) x _ t c hr
    refine ⟨{ numBits := n, minRange := ravel ⟨t.shape, fun i => (t.get i).1⟩,
              maxRange := ravel ⟨t.shape, fun i => (t.get i).2⟩, perChannel := true,
              channelAxis := some c, inputRank := if fw = .keras then some t.shape.length else none },
      by cases fw <;> rfl, rfl, rfl, ?_⟩
    intro idx hi
    have h7 := h6 idx hi
    have e1 : ravel ⟨t.shape, fun i => (t.get i).1⟩ = (ravel t).map Prod.fst := by
      simp [ravel, Function.comp_def]
    have e2 : ravel ⟨t.shape, fun i => (t.get i).2⟩ = (ravel t).map Prod.snd := by
      simp [ravel, Function.comp_def]
    simp only [exportedUni, quantizeUni, Value.read, entry, e1, e2, h4, if_true, Option.getD_some]
    rw [List.getD_eq_getElem?_getD (l := v.map Prod.fst), List.getD_eq_getElem?_getD (l := v.map Prod.snd),
      List.getElem?_map, List.getElem?_map, h7]
    rfl
  | false =>
    rw [if_neg (by simp)] at h
    obtain ⟨r, hr, h⟩ := Option.map_eq_some_iff.1 h
    simp only [Prod.mk.injEq] at h
    obtain ⟨rfl, rfl, rfl⟩ := h
    refine ⟨{ numBits := n, minRange := [r.1], maxRange := [r.2], perChannel := false,
              channelAxis := ax, inputRank := if fw = .keras then some 0 else none },
      by cases fw <;> rfl, rfl, rfl, ?_⟩
    intro idx _
    simp [exportedUni, quantizeUni, Value.read, entry]

/-- C130 is false of the code for symmetric parameters per tensor of a small array: when no threshold
above the minimal one is needed (an array of zeros, for example a bias that was not trained), the
threshold is a Python number, and building the exported quantizer fails in both frameworks. -/
theorem C130_small_violated (fw : Framework) (err : ℕ → List K → K) (x : Tensor K) (ax : Option ℕ)
    (n : ℕ) (minThr : K) (hn : 2 ≤ n) (hmin : 0 < minThr) (hne : ravel x ≠ [])
    (hc : Covers minThr n (ravel x)) :
    ∃ p, symNoClipSelect err x false ax n minThr = some (p, ax) ∧
      (∀ idx, p.read idx = minThr) ∧ symArgs fw n false p ax = none := by
  obtain ⟨m, hm, _, hcov⟩ := tensorMaxOf_covers hne (show 1 ≤ n by omega)
  refine ⟨.pyFloat minThr, ?_, fun _ => rfl, rfl⟩
  unfold symNoClipSelect
  rw [if_neg (by simp), hm]
  have : m ≤ minThr := (hcov hn minThr hmin).mp hc
  simp [pyMax, not_lt.2 this]

/-! ### The hypotheses are met -/

/-- A kernel of two filters with three values each, filters in the last dimension. -/
def demo : Tensor ℚ := { shape := [3, 2], get := fun i => if i.getD 1 0 = 0 then i.getD 0 0 else 10 }

example : channels demo 1 = [[0, 1, 2], [10, 10, 10]] ∧ channels demo 0 = [[0, 10], [1, 10], [2, 10]] := by
  decide +kernel

example : (potNoClipSelect (fun ax _ => if ax = 0 then 1 else 0) demo true none 4 (1 / 65536)).map
    (fun r => (r.1.flatten, r.2)) = some (some [4, 16], some 1) := by decide +kernel

example : (symNoClipSelect (fun _ _ => 0) demo true (some 1) 4 (1 / 65536)).map
    (fun r => (r.1.flatten, r.2)) = some (some [16 / 7, 80 / 7], some 1) := by decide +kernel

example : (potSearchSelect (fun _ _ t => t) (fun _ _ t => t) demo true none 3 3 (1 / 65536)).map
    (fun r => (r.1.flatten, r.2)) = some (some [2, 8], some 1) := by decide +kernel

example : (uniNoClipSelect (fun _ _ => 0) demo true (some 1) 4).map
    (fun r => (r.1.flatten, r.2.1.flatten)) = some (some [0, 0], some [2, 10]) := by decide +kernel

example : IsIndex demo.shape [2, 1] := by simp [IsIndex, demo]

example : searchAxes (rowwise (fun xs => potNoClip xs 4 (1 / 65536)) fun _ _ => 0)
    ({ shape := [2], get := fun _ => 1 } : Tensor ℚ) [3] = none :=
  C130_bias_violated _ _ 3 (by simp)

example : Covers (1 / 65536 : ℚ) 8 (ravel { shape := [2, 2], get := fun _ => 0 }) := by
  intro y hy
  have : y = 0 := by simp [ravel] at hy; exact hy.2
  subst this
  norm_num

end MCT.PerChan
