import Mathlib.Data.List.Basic
import Mathlib.Data.List.Range
import Mathlib.Data.List.InsertIdx
import Mathlib.Algebra.BigOperators.Group.List.Basic
import Mathlib.Tactic.Ring
import Mathlib.Tactic.Linarith
import Verif.Common.Lists

/-!
# Arrays with any number of dimensions

The part of NumPy used by the selection of weight parameters per channel: transposing, reshaping to
one row per channel, reshaping a vector to a shape with one long dimension, and broadcasting.
An array is its shape and the value at every index.
-/

namespace MCT.PerChan

/-- An array: the shape and the value at an index (a list with one entry per dimension). -/
structure Tensor (α : Type) where
  shape : List ℕ
  get : List ℕ → α

variable {α β : Type}

/-- All the indices of a shape in row-major order (the last index moves fastest). -/
def indices : List ℕ → List (List ℕ)
  | [] => [[]]
  | d :: ds => (List.range d).flatMap fun i => (indices ds).map fun j => i :: j

/-- `a.flatten()`: the values in row-major order. -/
def ravel (x : Tensor α) : List α := (indices x.shape).map x.get

/-- The position of an index in row-major order. -/
def flatIndex : List ℕ → List ℕ → ℕ
  | _ :: ds, i :: is => i * ds.prod + flatIndex ds is
  | _, _ => 0

/-- `np.transpose(a, axes)`: entry `k` of an index of the result is the position along dimension
`axes[k]` of `a`.  An exception unless `axes` lists every dimension once. -/
def transpose (axes : List ℕ) (x : Tensor α) : Option (Tensor α) :=
  if axes.Nodup ∧ axes.length = x.shape.length ∧ ∀ a ∈ axes, a < x.shape.length then
    some { shape := axes.map fun a => x.shape.getD a 0
           get := fun j => x.get ((List.range x.shape.length).map fun d => j.getD (axes.idxOf d) 0) }
  else none

/-- `shape_index` of `reshape_tensor_for_per_channel_search` (quantizers_helpers.py:265): the channel
dimension first, then the others.  `is not` on small integers is `≠`. -/
def shapeIndex (rank ax : ℕ) : List ℕ := ax :: (List.range rank).filter fun i => i ≠ ax

/-- `np.reshape(a, [c, -1])` as a list of rows; an exception if `c = 0` (the other dimension cannot
be inferred) or `c` does not divide the number of values. -/
def reshapeRows (c : ℕ) (x : Tensor α) : Option (List (List α)) :=
  let flat := ravel x
  if c = 0 ∨ flat.length % c ≠ 0 then none
  else some ((List.range c).map fun k => (flat.drop (k * (flat.length / c))).take (flat.length / c))

/-- `reshape_tensor_for_per_channel_search` (quantizers_helpers.py:254-270): one row per channel.
`tensor_data.shape[channel_axis]` is an IndexError for an axis that does not exist.  The axis is not
negative (framework_info.py:68, default_framework_info.py:50-52 and 58-61). -/
def toRows (x : Tensor α) (ax : ℕ) : Option (List (List α)) :=
  (x.shape[ax]?).bind fun c =>
    (transpose (shapeIndex x.shape.length ax) x).bind (reshapeRows c)

/-- `get_output_shape` (quantizers_helpers.py:302-312) with `-1` replaced by the number of values. -/
def outputShape (rank ax c : ℕ) : List ℕ := (List.range rank).map fun i => if i = ax then c else 1

/-- `np.reshape(v, output_shape)` of a vector with one value per channel
(quantizers_helpers.py:227-228,248; qparams_search.py:98,451,519). -/
def ofChannels (rank ax : ℕ) (v : List α) (dflt : α) : Tensor α :=
  { shape := outputShape rank ax v.length
    get := fun i => v.getD (flatIndex (outputShape rank ax v.length) i) dflt }

/-- Broadcasting an array against an index of an array of the same rank: a dimension of size one is
read at position zero. -/
def bcast (p : Tensor α) (idx : List ℕ) : α :=
  p.get (List.zipWith (fun d i => if d = 1 then 0 else i) p.shape idx)

/-! ### Specification -/

/-- `idx` is an index of the shape: one position per dimension, inside it. -/
def IsIndex (shape idx : List ℕ) : Prop := List.Forall₂ (fun i d => i < d) idx shape

/-- Channel `c`: the values whose position along the channel dimension is `c`, in the order of the
array. -/
def channel (x : Tensor α) (ax c : ℕ) : List α :=
  ((indices x.shape).filter fun i => i.getD ax 0 == c).map x.get

/-! ### Lemmas -/

theorem mem_indices {shape idx : List ℕ} : idx ∈ indices shape ↔ IsIndex shape idx := by
  unfold IsIndex
  induction shape generalizing idx with
  | nil => simp [indices]
  | cons d ds ih =>
    simp only [indices, List.mem_flatMap, List.mem_range, List.mem_map]
    constructor
    · rintro ⟨i, hi, j, hj, rfl⟩
      exact List.Forall₂.cons hi (ih.1 hj)
    · intro h
      cases h with
      | cons h1 h2 => exact ⟨_, h1, _, ih.2 h2, rfl⟩

theorem length_indices (shape : List ℕ) : (indices shape).length = shape.prod := by
  induction shape with
  | nil => simp [indices]
  | cons d ds ih =>
    simp [indices, List.length_flatMap, ih]

theorem length_of_mem_indices {shape idx : List ℕ} (h : idx ∈ indices shape) :
    idx.length = shape.length := (mem_indices.1 h).length_eq

/-- The indices of channel `c`, by position of the channel dimension. -/
theorem filter_indices (shape : List ℕ) (ax c : ℕ) (hax : ax < shape.length) (hc : c < shape[ax]) :
    (indices shape).filter (fun i => i.getD ax 0 == c) =
      (indices (shape.eraseIdx ax)).map fun j => j.insertIdx ax c := by
  induction shape generalizing ax with
  | nil => simp at hax
  | cons d ds ih =>
    cases ax with
    | zero =>
      simp only [indices, List.filter_flatMap, List.eraseIdx_zero, List.tail_cons,
        List.insertIdx_zero]
      have hc' : c < d := by simpa using hc
      have h1 : ∀ i, (((indices ds).map fun j => i :: j).filter fun i => i.getD 0 0 == c) =
          if i = c then (indices ds).map fun j => c :: j else [] := by
        intro i
        by_cases h : i = c
        · subst h; simp
        · simp [h, List.filter_eq_nil_iff]
      rw [List.flatMap_congr (fun i _ => h1 i)]
      clear h1 hc
      induction d with
      | zero => omega
      | succ d ihd =>
        rw [List.range_succ, List.flatMap_append]
        by_cases h : c = d
        · subst h
          have : (List.range c).flatMap (fun i => if i = c then (indices ds).map fun j => c :: j
              else []) = [] := by
            rw [List.flatMap_eq_nil_iff]
            intro x hx
            rw [if_neg (by have := List.mem_range.1 hx; omega)]
          rw [this]; simp
        · rw [ihd (by simp) (by omega)]
          simp [Ne.symm h]
    | succ ax =>
      have hax' : ax < ds.length := by simpa using hax
      have hc' : c < ds[ax] := by simpa using hc
      simp only [indices, List.filter_flatMap, List.eraseIdx_cons_succ, List.map_flatMap]
      refine List.flatMap_congr fun i _ => ?_
      rw [List.filter_map]
      have : ((fun i : List ℕ => i.getD (ax + 1) 0 == c) ∘ fun j => i :: j) =
          fun j => j.getD ax 0 == c := by
        funext j; simp
      rw [this, ih ax hax' hc']
      simp [List.map_map, Function.comp_def]

theorem filter_range_ne (r ax : ℕ) (h : ax < r) :
    (List.range r).filter (fun i => i ≠ ax) = List.range ax ++ List.range' (ax + 1) (r - ax - 1) := by
  have hr : List.range r = List.range ax ++ (ax :: List.range' (ax + 1) (r - ax - 1)) := by
    rw [← List.range'_succ, List.range_eq_range', List.range_eq_range']
    rw [show r - ax - 1 + 1 = r - ax by omega]
    have := @List.range'_append 0 ax (r - ax) 1
    simp only [Nat.zero_add, Nat.one_mul] at this
    rw [this]; congr 1; omega
  rw [hr, List.filter_append]
  congr 1
  · rw [List.filter_eq_self]
    intro a ha
    have := List.mem_range.1 ha
    simp; omega
  · rw [List.filter_cons_of_neg (by simp), List.filter_eq_self]
    intro a ha
    have := List.mem_range'_1.1 ha
    simp; omega

theorem shapeIndex_shape (shape : List ℕ) (ax : ℕ) (h : ax < shape.length) :
    (shapeIndex shape.length ax).map (fun a => shape.getD a 0) = shape[ax] :: shape.eraseIdx ax := by
  simp only [shapeIndex]
  rw [List.map_cons, filter_range_ne _ _ h]
  congr 1
  · simp [List.getD_eq_getElem?_getD, h]
  · apply List.ext_getElem
    · simp [List.length_eraseIdx, h]; omega
    · intro i h1 h2
      simp only [List.length_map, List.length_append, List.length_range, List.length_range'] at h1
      rw [List.getElem_map, List.getElem_eraseIdx]
      by_cases hi : i < ax
      · rw [List.getElem_append_left (by simpa using hi)]
        simp [hi, List.getD_eq_getElem?_getD, show i < shape.length by omega]
      · rw [List.getElem_append_right (by simp; omega)]
        have : ax + 1 + (i - ax) = i + 1 := by omega
        simp [hi, List.getD_eq_getElem?_getD, this, show i + 1 < shape.length by omega]

theorem idxOf_shapeIndex (r ax d : ℕ) (h : ax < r) (hd : d < r) :
    (shapeIndex r ax).idxOf d = if d = ax then 0 else if d < ax then d + 1 else d := by
  unfold shapeIndex
  rw [filter_range_ne _ _ h]
  by_cases h1 : d = ax
  · subst h1; simp
  · rw [if_neg h1, List.idxOf_cons_ne _ (fun h => h1 h.symm)]
    by_cases h2 : d < ax
    · rw [if_pos h2, List.idxOf_append_of_mem (by simpa using h2)]
      have : (List.range ax)[d]'(by simpa using h2) = d := by simp
      conv_lhs => rw [← this]
      rw [List.Nodup.idxOf_getElem List.nodup_range]
    · rw [if_neg h2, List.idxOf_append_of_notMem (by simpa using by omega)]
      have hl : d - ax - 1 < (List.range' (ax + 1) (r - ax - 1)).length := by simp; omega
      have : (List.range' (ax + 1) (r - ax - 1))[d - ax - 1]'hl = d := by simp; omega
      conv_lhs => rw [← this]
      rw [List.Nodup.idxOf_getElem List.nodup_range']
      simp; omega

theorem map_idx_eq_insertIdx (r ax c : ℕ) (j : List ℕ) (h : ax < r) (hj : j.length + 1 = r) :
    (List.range r).map (fun d => (c :: j).getD ((shapeIndex r ax).idxOf d) 0) = j.insertIdx ax c := by
  apply List.ext_getElem
  · rw [List.length_insertIdx]; simp; split <;> omega
  · intro d h1 h2
    have hd : d < r := by simpa using h1
    rw [List.getElem_map, List.getElem_range, idxOf_shapeIndex r ax d h hd]
    by_cases e : d = ax
    · subst e
      rw [List.getElem_insertIdx_self]; simp
    · rw [if_neg e]
      by_cases e2 : d < ax
      · rw [if_pos e2, List.getElem_insertIdx_of_lt e2]
        simp [List.getD_eq_getElem?_getD, show d < j.length by omega]
      · rw [if_neg e2, List.getElem_insertIdx_of_gt (by omega)]
        obtain ⟨d', rfl⟩ : ∃ d', d = d' + 1 := ⟨d - 1, by omega⟩
        simp [List.getD_eq_getElem?_getD, show d' < j.length by omega]

theorem drop_take_flatMap {m : ℕ} (f : ℕ → List α) (l : List ℕ) (hf : ∀ k, (f k).length = m) (k : ℕ)
    (hk : k < l.length) : ((l.flatMap f).drop (k * m)).take m = f l[k] := by
  induction l generalizing k with
  | nil => simp at hk
  | cons a l ih =>
    cases k with
    | zero => simp [List.take_append_of_le_length, hf, List.take_of_length_le]
    | succ k =>
      rw [List.flatMap_cons]
      have : (k + 1) * m = (f a).length + k * m := by rw [hf]; ring
      rw [this, ← List.drop_drop, List.drop_left]
      simpa using ih k (by simpa using hk)

theorem length_flatMap_const {m : ℕ} (f : ℕ → List α) (l : List ℕ) (hf : ∀ k, (f k).length = m) :
    (l.flatMap f).length = l.length * m := by
  induction l with
  | nil => simp
  | cons a l ih => rw [List.flatMap_cons, List.length_append, ih, hf]; simp; ring

theorem transpose_shapeIndex (x : Tensor α) (ax : ℕ) (h : ax < x.shape.length) :
    transpose (shapeIndex x.shape.length ax) x = some
      { shape := x.shape[ax] :: x.shape.eraseIdx ax
        get := fun j => x.get ((List.range x.shape.length).map fun d =>
          j.getD ((shapeIndex x.shape.length ax).idxOf d) 0) } := by
  unfold transpose
  rw [if_pos]
  · rw [shapeIndex_shape _ _ h]
  · refine ⟨?_, ?_, ?_⟩
    · unfold shapeIndex
      refine List.nodup_cons.2 ⟨by simp, (List.nodup_range).filter _⟩
    · unfold shapeIndex; rw [filter_range_ne _ _ h]; simp; omega
    · intro a ha
      unfold shapeIndex at ha
      rcases List.mem_cons.1 ha with rfl | ha
      · exact h
      · exact List.mem_range.1 (List.mem_filter.1 ha).1

/-- The rows are the channels. -/
theorem toRows_eq (x : Tensor α) (ax : ℕ) (h : ax < x.shape.length) (h0 : x.shape[ax] ≠ 0) :
    toRows x ax = some ((List.range x.shape[ax]).map (channel x ax)) := by
  unfold toRows
  rw [List.getElem?_eq_getElem h, Option.bind_some, transpose_shapeIndex x ax h, Option.bind_some]
  unfold reshapeRows
  dsimp only
  set C := x.shape[ax] with hC
  set f : ℕ → List α := fun i => (indices (x.shape.eraseIdx ax)).map fun j =>
    x.get (j.insertIdx ax i) with hf
  have hflat : ravel (α := α)
      { shape := C :: x.shape.eraseIdx ax
        get := fun j => x.get ((List.range x.shape.length).map fun d =>
          j.getD ((shapeIndex x.shape.length ax).idxOf d) 0) } = (List.range C).flatMap f := by
    unfold ravel
    simp only [indices, List.map_flatMap, List.map_map]
    refine List.flatMap_congr fun i _ => ?_
    rw [hf]
    refine List.map_congr_left fun j hj => ?_
    have hl := length_of_mem_indices hj
    rw [List.length_eraseIdx, if_pos h] at hl
    simp only [Function.comp]
    rw [map_idx_eq_insertIdx _ _ _ _ h (by omega)]
  have hfl : ∀ k, (f k).length = (x.shape.eraseIdx ax).prod := by
    intro k; simp [hf, length_indices]
  rw [hflat, length_flatMap_const f _ hfl, List.length_range, if_neg (by simp [h0]),
    Nat.mul_div_cancel_left _ (Nat.pos_of_ne_zero h0)]
  congr 1
  refine List.map_congr_left fun k hk => ?_
  rw [drop_take_flatMap f _ hfl k (by simpa using hk)]
  simp only [List.getElem_range, hf, channel]
  rw [filter_indices _ _ _ h (List.mem_range.1 hk)]
  simp [List.map_map, Function.comp_def]

theorem toRows_none (x : Tensor α) (ax : ℕ) (h : x.shape.length ≤ ax) : toRows x ax = none := by
  unfold toRows
  rw [List.getElem?_eq_none h]; rfl

theorem toRows_zero (x : Tensor α) (ax : ℕ) (h : ax < x.shape.length) (h0 : x.shape[ax] = 0) :
    toRows x ax = none := by
  unfold toRows
  rw [List.getElem?_eq_getElem h, Option.bind_some, transpose_shapeIndex x ax h, Option.bind_some]
  simp [reshapeRows, h0]

theorem flatIndex_zeros (l idx : List ℕ) (h : ∀ i ∈ idx, i = 0) : flatIndex l idx = 0 := by
  induction l generalizing idx with
  | nil => simp [flatIndex]
  | cons d ds ih =>
    cases idx with
    | nil => simp [flatIndex]
    | cons i is =>
      simp only [flatIndex]
      rw [h i (by simp), ih is (fun j hj => h j (by simp [hj]))]; simp

/-- Row-major position in a shape with one long dimension. -/
theorem flatIndex_one (r s ax c : ℕ) (idx : List ℕ) (hl : idx.length = r) (hax : s ≤ ax) (hax' : ax < s + r)
    (hc : idx.getD (ax - s) 0 < c) :
    flatIndex ((List.range' s r).map fun i => if i = ax then c else 1)
      (List.zipWith (fun d i => if d = 1 then 0 else i)
        ((List.range' s r).map fun i => if i = ax then c else 1) idx) = idx.getD (ax - s) 0 := by
  induction r generalizing s idx with
  | zero => omega
  | succ r ih =>
    cases idx with
    | nil => simp at hl
    | cons i is =>
      rw [List.range'_succ]
      simp only [List.map_cons, List.zipWith_cons_cons, flatIndex]
      by_cases e : s = ax
      · subst e
        have hp : ((List.range' (s + 1) r).map fun i => if i = s then c else 1) =
            List.replicate r 1 := by
          apply List.eq_replicate_iff.2
          refine ⟨by simp, ?_⟩
          intro b hb
          obtain ⟨a, ha, rfl⟩ := List.mem_map.1 hb
          have := List.mem_range'_1.1 ha
          rw [if_neg (by omega)]
        rw [hp, flatIndex_zeros]
        · simp only [Nat.sub_self, List.getD_cons_zero] at hc ⊢
          simp
          omega
        · intro j hj
          obtain ⟨k, hk, rfl⟩ := List.getElem_of_mem hj
          simp
      · rw [if_neg e]
        have h1 : ax - s = (ax - (s + 1)) + 1 := by omega
        rw [h1] at hc ⊢
        rw [List.getD_cons_succ] at hc ⊢
        simp only [if_true, Nat.zero_mul, Nat.zero_add]
        exact ih (s + 1) is (by simpa using hl) (by omega) (by omega) hc

/-- Broadcasting a vector reshaped to one value per channel reads the value of the channel. -/
theorem bcast_ofChannels (rank ax : ℕ) (v : List α) (dflt : α) (idx : List ℕ)
    (hl : idx.length = rank) (hax : ax < rank) (hc : idx.getD ax 0 < v.length) :
    bcast (ofChannels rank ax v dflt) idx = v.getD (idx.getD ax 0) dflt := by
  unfold bcast ofChannels outputShape
  dsimp only
  have := flatIndex_one rank 0 ax v.length idx hl (Nat.zero_le _) (by omega) (by simpa using hc)
  rw [List.range_eq_range', this]; simp

theorem indices_replicate_one (r : ℕ) : indices (List.replicate r 1) = [List.replicate r 0] := by
  induction r with
  | zero => simp [indices]
  | succ r ih => simp [List.replicate_succ, indices, ih]

theorem outputShape_range' (s r ax c : ℕ) (h1 : s ≤ ax) (h2 : ax < s + r) :
    (List.range' s r).map (fun i => if i = ax then c else 1) =
      List.replicate (ax - s) 1 ++ c :: List.replicate (r - (ax - s) - 1) 1 := by
  apply List.ext_getElem
  · simp; omega
  · intro i hi hi'
    simp only [List.getElem_map, List.getElem_range']
    have hi0 : i < r := by simpa using hi
    by_cases e : i < ax - s
    · rw [List.getElem_append_left (by simpa using e), if_neg (by omega)]; simp
    · rw [List.getElem_append_right (by simp; omega)]
      by_cases e2 : i = ax - s
      · subst e2; simp; intro h; omega
      · rw [if_neg (by omega)]
        rw [List.getElem_cons]
        rw [dif_neg (by simp; omega)]
        simp

/-- Flattening the reshaped vector gives the vector back. -/
theorem ravel_ofChannels (rank ax : ℕ) (v : List α) (dflt : α) (hax : ax < rank) :
    ravel (ofChannels rank ax v dflt) = v := by
  unfold ravel ofChannels outputShape
  dsimp only
  rw [List.range_eq_range', outputShape_range' 0 rank ax v.length (by omega) (by omega)]
  simp only [Nat.sub_zero]
  generalize rank - ax - 1 = b
  induction ax generalizing rank with
  | zero =>
    simp only [List.replicate_zero, List.nil_append, indices, indices_replicate_one, List.map_cons,
      List.map_nil]
    apply List.ext_getElem
    · simp
    · intro i h1 h2
      have : (List.range v.length).flatMap (fun i => [i :: List.replicate b 0]) =
          (List.range v.length).map fun i => i :: List.replicate b 0 := by
        rw [List.map_eq_flatMap]
      simp only [this, List.getElem_map, List.getElem_range, flatIndex]
      rw [flatIndex_zeros _ _ (fun j hj => (List.mem_replicate.1 hj).2)]
      simp [List.getD_eq_getElem?_getD, h2]
  | succ a ih =>
    simp only [List.replicate_succ, List.cons_append, indices, List.range_one, List.flatMap_cons,
      List.flatMap_nil, List.append_nil, List.map_map]
    refine Eq.trans (List.map_congr_left fun j _ => ?_) (ih (rank - 1) (by omega))
    simp [flatIndex]

end MCT.PerChan
