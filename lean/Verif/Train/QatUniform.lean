/- Uniform weight quantizers of quantization-aware training: every channel by its own range, and what
is exported against what was trained. -/
import Verif.Train.Export
import Verif.PerChan.Tensor

namespace MCT.Train
open MCT.Quant MCT.QuantSpec MCT.PerChan

set_option linter.unusedSectionVars false
set_option linter.unusedVariables false

variable {K : Type} [Field K] [LinearOrder K] [IsStrictOrderedRing K] [FloorRing K]

/-! ### Model -/

/-- `tf.quantization.fake_quant_with_min_max_vars` of TensorFlow (an external library), one element:
the range is moved so that zero is a code, the input is clipped, and a tie is rounded up. -/
def tfFake (x lo hi : K) (n : ℕ) : K :=
  let s := (hi - lo) / (2 ^ n - 1)
  let zp0 := -lo / s
  let zp : K := if zp0 < 0 then 0 else if 2 ^ n - 1 < zp0 then 2 ^ n - 1 else (⌊zp0 + 1 / 2⌋ : K)
  let nlo := -zp * s
  let nhi := (2 ^ n - 1 - zp) * s
  (⌊(npClip x nlo nhi - nlo) / s + 1 / 2⌋ : K) * s + nlo

/-- The exported PyTorch quantizer of mct_quantizers (an external library), one element: the range is
adjusted to include zero, then `torch.fake_quantize_per_channel_affine`, which rounds `x / scale`
(ties to even) before it adds the zero point. -/
def torchUniInfer (x rmin rmax : K) (n : ℕ) : K :=
  let ab := fixRange rmin rmax n
  let s := (ab.2 - ab.1) / (2 ^ n - 1)
  let zp : K := -(npRound (ab.1 / s) : K)
  s * (npClip ((npRound (x / s) : K) + zp) 0 (2 ^ n - 1) - zp)

/-- The exported Keras quantizer of mct_quantizers (an external library), one element: the range is
adjusted to include zero, then TensorFlow's operation. -/
def kerasUniInfer (x rmin rmax : K) (n : ℕ) : K :=
  tfFake x (fixRange rmin rmax n).1 (fixRange rmin rmax n).2 n

/-- `self.perm_vec`, qat/keras/quantizer/ste_rounding/uniform_ste.py 65-67 (and symmetric_ste.py 65-67):
the channel dimension and the last one swapped. -/
def swapPerm (r ax : ℕ) : List ℕ := ((List.range r).set ax (r - 1)).set (r - 1) ax

/-- `tf.quantization.fake_quant_with_min_max_vars_per_channel` (an external library): one range for
every position along the last dimension; an exception if the sizes differ. -/
def fakeLast (x : Tensor K) (rs : List (K × K)) (n : ℕ) : Option (Tensor K) :=
  if x.shape.getLast? = some rs.length then
    some { shape := x.shape
           get := fun idx => tfFake (x.get idx) (rs.getD (idx.getD (x.shape.length - 1) 0) (0, 0)).1
             (rs.getD (idx.getD (x.shape.length - 1) 0) (0, 0)).2 n }
  else none

/-- `STEUniformWeightQATQuantizer.__call__` of Keras per channel, uniform_ste.py 104-132 with `perm_vec`
of 62-69.  The ranges `rs` are the flattened ones of 59-60.  `len(self.min_max_shape)` is the number of
dimensions of the weights. -/
def steKeras (x : Tensor K) (rs : List (K × K)) (ax n : ℕ) : Option (Tensor K) :=
  let adj := rs.map fun r => fixRange r.1 r.2 n
  let p := swapPerm x.shape.length ax
  if ax ≠ x.shape.length - 1 then
    (transpose p x).bind fun y => (fakeLast y adj n).bind (transpose p)
  else fakeLast x adj n

/-- `LSQUniformWeightQATQuantizer.__call__` per channel, qat/keras/quantizer/lsq/uniform_lsq.py 101-116 and
qat/pytorch/quantizer/lsq/uniform_lsq.py 86-100, and `STEUniformWeightQATQuantizer.__call__` of PyTorch,
qat/pytorch/quantizer/ste_rounding/uniform_ste.py 89-100: the ranges keep one long dimension and are
broadcast.  Sizes that differ raise (a single range for many channels does not occur). -/
def rangeCall (x : Tensor K) (rs : List (K × K)) (ax n : ℕ) : Option (Tensor K) :=
  if rs.length = x.shape.getD ax 0 then
    some { shape := x.shape
           get := fun idx =>
             uniTrain (x.get idx) (bcast (ofChannels x.shape.length ax rs (0, 0)) idx).1
               (bcast (ofChannels x.shape.length ax rs (0, 0)) idx).2 n }
  else none

/-- The range given to the exported quantizer by `convert2inferable`: uniform_lsq.py 118-134 (Keras), 102-116
(PyTorch) and uniform_ste.py 134-147 (Keras) adjust it to include zero; uniform_ste.py 102-116 of
PyTorch passes it on as it is. -/
def uniConvert (adjust : Bool) (r : K × K) (n : ℕ) : K × K :=
  if adjust then fixRange r.1 r.2 n else r

/-- The constructor of the Keras LSQ quantizer, qat/keras/quantizer/lsq/uniform_lsq.py 63-69: `size` of
`self.max_values`, which is a NumPy array per channel and a Python float (no such attribute)
otherwise.  The result is the number of ranges. -/
def lsqKerasInit (perChannel : Bool) (rs : List (K × K)) : Option ℕ :=
  if perChannel then some rs.length else none

/-! ### Specification -/

/-- `x` has a single nearest point in `G`: it is not half way between two of them. -/
def NoTie (G : Set K) (x : K) : Prop := ∀ y z, Nearest G x y → Nearest G x z → y = z

/-! ### Lemmas -/

/-- Adjusting an adjusted range changes nothing. -/
theorem fixRange_idem (a b : K) (n : ℕ) (h : a < b) (hn : 1 ≤ n) :
    fixRange (fixRange a b n).1 (fixRange a b n).2 n = fixRange a b n := by
  obtain ⟨k, _, _, hlt, h0, h1, hz⟩ := fixRange_spec a b n h hn
  set A := (fixRange a b n).1 with hA
  set B := (fixRange a b n).2 with hB
  have hp : fixRange a b n = (A, B) := rfl
  rw [hp, fixRange_eq A B n hlt, if_neg (not_lt.2 h0), if_neg (not_lt.2 h1)]
  dsimp only
  have hd := delta_pos hlt hn
  set s := (B - A) / (2 ^ n - 1) with hs
  have e : A / s = ((-k : ℤ) : K) := by
    rw [div_eq_iff hd.ne']; push_cast; linarith
  rw [e, npRound_intCast]
  have e2 : s * ((-k : ℤ) : K) = A := by push_cast; linarith
  rw [e2]; congr 1; ring

/-- TensorFlow's operation on an adjusted range. -/
theorem tfFake_fix (x a b : K) (n : ℕ) (h : a < b) (hn : 1 ≤ n) :
    tfFake x (fixRange a b n).1 (fixRange a b n).2 n =
      (⌊(npClip x (fixRange a b n).1 (fixRange a b n).2 - (fixRange a b n).1) /
          (((fixRange a b n).2 - (fixRange a b n).1) / (2 ^ n - 1)) + 1 / 2⌋ : K) *
        (((fixRange a b n).2 - (fixRange a b n).1) / (2 ^ n - 1)) + (fixRange a b n).1 := by
  obtain ⟨k, hk0, hk1, hlt, h0, h1, hz⟩ := fixRange_spec a b n h hn
  set A := (fixRange a b n).1 with hA
  set B := (fixRange a b n).2 with hB
  have hd := delta_pos hlt hn
  have hq : (0 : K) < 2 ^ n - 1 := two_pow_sub_one_pos hn
  unfold tfFake
  dsimp only
  have hw : B - A = (2 ^ n - 1) * ((B - A) / (2 ^ n - 1)) := by field_simp
  set s := (B - A) / (2 ^ n - 1) with hs
  have e : -A / s = (k : K) := by
    rw [div_eq_iff hd.ne']; linarith
  have hk0' : (0 : K) ≤ k := by exact_mod_cast hk0
  have hk1' : (k : K) ≤ 2 ^ n - 1 := by exact_mod_cast hk1
  have hf : ⌊(k : K) + 1 / 2⌋ = k := by
    rw [Int.floor_eq_iff]; constructor <;> linarith
  rw [e, if_neg (not_lt.2 hk0'), if_neg (not_lt.2 hk1'), hf]
  have e1 : -(k : K) * s = A := by linarith
  have e2 : (2 ^ n - 1 - (k : K)) * s = B := by
    rw [sub_mul, ← hw]; linarith
  rw [e1, e2]

theorem floor_half_sub_le (v : K) : |((⌊v + 1 / 2⌋ : ℤ) : K) - v| ≤ 1 / 2 := by
  have h1 := Int.floor_le (v + 1 / 2)
  have h2 := Int.lt_floor_add_one (v + 1 / 2)
  rw [abs_le]; constructor <;> linarith

/-- Clipping before or after rounding up at ties. -/
theorem floor_half_clip (v : K) (M : ℤ) (hM : 0 ≤ M) :
    ((⌊npClip v 0 (M : K) + 1 / 2⌋ : ℤ) : K) = npClip ((⌊v + 1 / 2⌋ : ℤ) : K) 0 (M : K) := by
  have hc : npClip ((⌊v + 1 / 2⌋ : ℤ) : K) 0 (M : K) = ((npClip ⌊v + 1 / 2⌋ 0 M : ℤ) : K) := by
    have := npClip_cast (K := K) ⌊v + 1 / 2⌋ 0 M
    push_cast at this; exact this
  rw [hc]
  congr 1
  have hM' : (0 : K) ≤ M := by exact_mod_cast hM
  unfold npClip
  rcases lt_or_ge v 0 with hv | hv
  · rw [max_eq_right hv.le, min_eq_left hM']
    have : ⌊v + 1 / 2⌋ ≤ 0 := by
      have : v + 1 / 2 < 1 := by linarith
      have := Int.floor_lt (a := v + 1 / 2) (z := 1) |>.2 (by push_cast; linarith)
      omega
    rw [max_eq_right this, min_eq_left hM]
    rw [Int.floor_eq_iff]; constructor <;> push_cast <;> linarith
  · rw [max_eq_left hv]
    have h0 : 0 ≤ ⌊v + 1 / 2⌋ := Int.floor_nonneg.2 (by linarith)
    rw [max_eq_left h0]
    rcases lt_or_ge (M : K) v with hm | hm
    · rw [min_eq_right hm.le]
      have : M ≤ ⌊v + 1 / 2⌋ := Int.le_floor.2 (by linarith)
      rw [min_eq_right this, Int.floor_eq_iff]; constructor <;> linarith
    · rw [min_eq_left hm]
      have : ⌊v + 1 / 2⌋ ≤ M := by
        have := Int.floor_lt (a := v + 1 / 2) (z := M + 1) |>.2 (by push_cast; linarith)
        omega
      rw [min_eq_left this]

/-- The exported Keras quantizer gives a nearest value of the grid. -/
theorem kerasUniInfer_nearest {a b : K} (h : a < b) {n : ℕ} (hn : 1 ≤ n) (x : K) :
    Nearest (UniformGrid (fixRange a b n).1 (fixRange a b n).2 n) x (kerasUniInfer x a b n) := by
  obtain ⟨_, _, _, hlt, _, _, _⟩ := fixRange_spec a b n h hn
  unfold kerasUniInfer
  rw [tfFake_fix x a b n h hn]
  set A := (fixRange a b n).1 with hA
  set B := (fixRange a b n).2 with hB
  have hd := delta_pos hlt hn
  have hq : (0 : K) < 2 ^ n - 1 := two_pow_sub_one_pos hn
  have h1 : (1 : ℤ) ≤ 2 ^ n := one_le_pow₀ (by norm_num)
  have key : (npClip x A B - A) / ((B - A) / (2 ^ n - 1)) =
      npClip ((x - A) / ((B - A) / (2 ^ n - 1))) 0 (((2 ^ n - 1 : ℤ)) : K) := by
    have hw : (B - A) / ((B - A) / (2 ^ n - 1)) = 2 ^ n - 1 := by
      have : B - A ≠ 0 := by linarith
      field_simp
    push_cast
    set s := (B - A) / (2 ^ n - 1) with hs
    unfold npClip
    have m1 : Monotone fun y : K => (y - A) / s := fun y z hyz => by
      apply div_le_div_of_nonneg_right _ hd.le; linarith
    have := m1.map_min (a := max x A) (b := B)
    rw [this, hw]
    have := m1.map_max (a := x) (b := A)
    rw [this]; simp
  rw [key, floor_half_clip _ _ (by omega)]
  have := uniform_code_nearest (x := x) hlt hn (floor_half_sub_le ((x - A) / ((B - A) / (2 ^ n - 1))))
  push_cast
  rw [mul_comm]; exact this

/-- The exported PyTorch quantizer gives a nearest value of the grid. -/
theorem torchUniInfer_nearest {a b : K} (h : a < b) {n : ℕ} (hn : 1 ≤ n) (x : K) :
    Nearest (UniformGrid (fixRange a b n).1 (fixRange a b n).2 n) x (torchUniInfer x a b n) := by
  obtain ⟨k, _, _, hlt, _, _, hz⟩ := fixRange_spec a b n h hn
  unfold torchUniInfer
  dsimp only
  set A := (fixRange a b n).1 with hA
  set B := (fixRange a b n).2 with hB
  have hd := delta_pos hlt hn
  have hu := @uniform_code_nearest K _ _ _ _ x A B hlt n hn
  set s := (B - A) / (2 ^ n - 1) with hs
  have e : A / s = ((-k : ℤ) : K) := by
    rw [div_eq_iff hd.ne']; push_cast; linarith
  rw [e, npRound_intCast]
  have e2 : (npRound (x / s) : K) + -(((-k : ℤ)) : K) = ((npRound (x / s) + k : ℤ) : K) := by
    push_cast; ring
  rw [e2]
  have e3 : (x - A) / s = x / s + k := by
    have : A = -(k : K) * s := by linarith
    rw [this]; field_simp; ring
  have := hu (k := npRound (x / s) + k) (by
    rw [e3]; push_cast
    have := npRound_sub_le (x / s)
    have e4 : (npRound (x / s) : K) + k - (x / s + k) = npRound (x / s) - x / s := by ring
    rw [e4]; exact this)
  have e5 : ∀ c : K, s * (c - -(((-k : ℤ)) : K)) = s * c + A := by
    intro c; push_cast; linear_combination hz
  rw [e5]; exact this

/-! ### Tensors -/

theorem swapPerm_length (r ax : ℕ) : (swapPerm r ax).length = r := by simp [swapPerm]

theorem swapPerm_get (r ax i : ℕ) (hax : ax < r) (hi : i < r) :
    (swapPerm r ax)[i]'(by simpa [swapPerm] using hi) =
      if i = r - 1 then ax else if i = ax then r - 1 else i := by
  unfold swapPerm
  rw [List.getElem_set, List.getElem_set]
  by_cases h1 : i = r - 1
  · simp [h1]
  · by_cases h2 : i = ax
    · subst h2; rw [if_neg (by omega), if_pos rfl, if_neg h1, if_pos rfl]
    · rw [if_neg (by omega), if_neg (by omega), if_neg h1, if_neg h2]; simp

theorem swapPerm_invol (r ax i : ℕ) (hax : ax < r) (hi : i < r) :
    (if (if i = r - 1 then ax else if i = ax then r - 1 else i) = r - 1 then ax
      else if (if i = r - 1 then ax else if i = ax then r - 1 else i) = ax then r - 1
      else (if i = r - 1 then ax else if i = ax then r - 1 else i)) = i := by
  split_ifs <;> omega

theorem swapPerm_nodup (r ax : ℕ) (hax : ax < r) : (swapPerm r ax).Nodup := by
  rw [List.nodup_iff_injective_get]
  rintro ⟨i, hi⟩ ⟨j, hj⟩ h
  rw [swapPerm_length] at hi hj
  simp only [List.get_eq_getElem] at h
  rw [swapPerm_get r ax i hax hi, swapPerm_get r ax j hax hj] at h
  have := swapPerm_invol r ax i hax hi
  rw [h, swapPerm_invol r ax j hax hj] at this
  simp [this]

theorem swapPerm_idxOf (r ax d : ℕ) (hax : ax < r) (hd : d < r) :
    (swapPerm r ax).idxOf d = if d = r - 1 then ax else if d = ax then r - 1 else d := by
  set e := if d = r - 1 then ax else if d = ax then r - 1 else d with he
  have her : e < r := by rw [he]; split_ifs <;> omega
  have hg : (swapPerm r ax)[e]'(by simpa [swapPerm] using her) = d := by
    rw [swapPerm_get r ax e hax her, he]; exact swapPerm_invol r ax d hax hd
  conv_lhs => rw [← hg]
  exact (swapPerm_nodup r ax hax).idxOf_getElem _ _

/-- Position `i` of an index after the swap. -/
theorem transpose_swap {α : Type} (x : Tensor α) (ax : ℕ) (hax : ax < x.shape.length) :
    transpose (swapPerm x.shape.length ax) x = some
      { shape := (swapPerm x.shape.length ax).map fun a => x.shape.getD a 0
        get := fun j => x.get ((List.range x.shape.length).map fun d =>
          j.getD (if d = x.shape.length - 1 then ax else if d = ax then x.shape.length - 1 else d) 0) } := by
  unfold transpose
  rw [if_pos]
  · congr 2
    funext j
    congr 1
    refine List.map_congr_left fun d hd => ?_
    rw [swapPerm_idxOf _ _ _ hax (List.mem_range.1 hd)]
  · refine ⟨swapPerm_nodup _ _ hax, swapPerm_length _ _, ?_⟩
    intro a ha
    obtain ⟨i, hi, rfl⟩ := List.getElem_of_mem ha
    have hi' : i < x.shape.length := by simpa [swapPerm] using hi
    rw [swapPerm_get _ _ i hax hi']
    split_ifs <;> omega

theorem map_range_getD (l : List ℕ) (r : ℕ) (h : l.length = r) :
    ((List.range r).map fun d => l.getD d 0) = l := by
  subst h
  apply List.ext_getElem
  · simp
  · intro i h1 h2
    simp [List.getD_eq_getElem?_getD, h2]

theorem getD_map_range (f : ℕ → ℕ) (r i : ℕ) (h : i < r) :
    ((List.range r).map f).getD i 0 = f i := by
  simp [List.getD_eq_getElem?_getD, h]

theorem swap_twice_shape (s : List ℕ) (ax : ℕ) (hax : ax < s.length) :
    ((swapPerm s.length ax).map fun a => ((swapPerm s.length ax).map fun a => s.getD a 0).getD a 0) = s := by
  apply List.ext_getElem
  · simp [swapPerm_length]
  · intro i h1 h2
    have hm : ∀ j, j < s.length → ((swapPerm s.length ax).map fun a => s.getD a 0).getD j 0 =
        s.getD (if j = s.length - 1 then ax else if j = ax then s.length - 1 else j) 0 := by
      intro j hj
      rw [List.getD_eq_getElem?_getD, List.getElem?_map,
        List.getElem?_eq_getElem (by rw [swapPerm_length]; exact hj)]
      simp only [Option.map_some, Option.getD_some]
      rw [swapPerm_get _ _ j hax hj]
    rw [List.getElem_map, hm _ (by rw [swapPerm_get _ _ i hax h2]; split_ifs <;> omega),
      swapPerm_get _ _ i hax h2, swapPerm_invol _ _ i hax h2]
    simp [List.getD_eq_getElem?_getD, h2]

/-- The Keras quantizer reads, for every weight, the range of the channel of that weight. -/
theorem steKeras_eq (x : Tensor K) (rs : List (K × K)) (ax n : ℕ) (hax : ax < x.shape.length)
    (hl : rs.length = x.shape.getD ax 0) :
    ∃ y, steKeras x rs ax n = some y ∧ y.shape = x.shape ∧ ∀ idx, IsIndex x.shape idx →
      y.get idx = tfFake (x.get idx)
        ((rs.map fun r => fixRange r.1 r.2 n).getD (idx.getD ax 0) (0, 0)).1
        ((rs.map fun r => fixRange r.1 r.2 n).getD (idx.getD ax 0) (0, 0)).2 n := by
  unfold steKeras
  dsimp only
  by_cases h : ax = x.shape.length - 1
  · rw [if_neg (by simpa using h)]
    unfold fakeLast
    rw [if_pos]
    · refine ⟨_, rfl, rfl, ?_⟩
      intro idx _
      rw [← h]
    · rw [List.getLast?_eq_getElem?, ← h, List.getElem?_eq_getElem hax, List.length_map, hl,
        List.getD_eq_getElem?_getD, List.getElem?_eq_getElem hax]; simp
  · rw [if_pos h, transpose_swap x ax hax, Option.bind_some]
    unfold fakeLast
    rw [if_pos]
    · rw [Option.bind_some]
      have hlen : ((swapPerm x.shape.length ax).map fun a => x.shape.getD a 0).length =
          x.shape.length := by simp [swapPerm_length]
      have ht := transpose_swap (α := K)
        { shape := (swapPerm x.shape.length ax).map fun a => x.shape.getD a 0
          get := fun idx => tfFake (x.get ((List.range x.shape.length).map fun d =>
              idx.getD (if d = x.shape.length - 1 then ax else if d = ax then x.shape.length - 1 else d) 0))
            ((rs.map fun r => fixRange r.1 r.2 n).getD (idx.getD
              (((swapPerm x.shape.length ax).map fun a => x.shape.getD a 0).length - 1) 0) (0, 0)).1
            ((rs.map fun r => fixRange r.1 r.2 n).getD (idx.getD
              (((swapPerm x.shape.length ax).map fun a => x.shape.getD a 0).length - 1) 0) (0, 0)).2 n }
        ax (by simpa [swapPerm_length] using hax)
      simp only [hlen] at ht
      simp only [hlen]
      refine ⟨_, ht, ?_, ?_⟩
      · exact swap_twice_shape _ _ hax
      · intro idx hidx
        have hil : idx.length = x.shape.length := hidx.length_eq
        have e1 : ((List.range x.shape.length).map fun d =>
            (((List.range x.shape.length).map fun d => idx.getD
              (if d = x.shape.length - 1 then ax else if d = ax then x.shape.length - 1 else d) 0)).getD
              (if d = x.shape.length - 1 then ax else if d = ax then x.shape.length - 1 else d) 0) = idx := by
          refine Eq.trans (List.map_congr_left fun d hd => ?_) (map_range_getD idx _ hil)
          have hd' := List.mem_range.1 hd
          rw [getD_map_range _ _ _ (by split_ifs <;> omega), swapPerm_invol _ _ d hax hd']
        have e2 : ((List.range x.shape.length).map fun d => idx.getD
            (if d = x.shape.length - 1 then ax else if d = ax then x.shape.length - 1 else d) 0).getD
            (x.shape.length - 1) 0 = idx.getD ax 0 := by
          rw [getD_map_range _ _ _ (by omega), if_pos rfl]
        dsimp only
        rw [e1, e2]
    · rw [List.getLast?_eq_getElem?, List.length_map, swapPerm_length, List.getElem?_map,
        List.getElem?_eq_getElem (by rw [swapPerm_length]; omega), Option.map_some,
        swapPerm_get _ _ _ hax (by omega), if_pos rfl, List.length_map, hl]

theorem rangeCall_eq (x : Tensor K) (rs : List (K × K)) (ax n : ℕ) (hax : ax < x.shape.length)
    (hl : rs.length = x.shape.getD ax 0) :
    ∃ y, rangeCall x rs ax n = some y ∧ y.shape = x.shape ∧ ∀ idx, IsIndex x.shape idx →
      y.get idx = uniTrain (x.get idx) (rs.getD (idx.getD ax 0) (0, 0)).1
        (rs.getD (idx.getD ax 0) (0, 0)).2 n := by
  unfold rangeCall
  rw [if_pos hl]
  refine ⟨_, rfl, rfl, ?_⟩
  intro idx hidx
  have hi : idx.getD ax 0 < rs.length := by
    have h1 : ax < idx.length := by rw [hidx.length_eq]; exact hax
    have := List.Forall₂.get hidx h1 hax
    rw [hl, List.getD_eq_getElem?_getD, List.getD_eq_getElem?_getD, List.getElem?_eq_getElem h1,
      List.getElem?_eq_getElem hax]
    simpa using this
  dsimp only
  rw [bcast_ofChannels _ _ _ _ _ hidx.length_eq hax hi]

/-! ### C132 -/

/-- **C132** (Keras, straight-through): wherever the channel dimension is, the quantizer keeps the shape and
maps every weight to a nearest value of the grid of its own channel. -/
theorem C132_keras_ste_own_channel (x : Tensor K) (rs : List (K × K)) (ax n : ℕ) (hn : 1 ≤ n)
    (hax : ax < x.shape.length) (hl : rs.length = x.shape.getD ax 0) (hr : ∀ r ∈ rs, r.1 < r.2) :
    ∃ y, steKeras x rs ax n = some y ∧ y.shape = x.shape ∧
      ∀ idx, IsIndex x.shape idx → ∀ lo hi, rs[idx.getD ax 0]? = some (lo, hi) →
        Nearest (UniformGrid (fixRange lo hi n).1 (fixRange lo hi n).2 n) (x.get idx) (y.get idx) := by
  obtain ⟨y, h1, h2, h3⟩ := steKeras_eq x rs ax n hax hl
  refine ⟨y, h1, h2, ?_⟩
  intro idx hidx lo hi hg
  rw [h3 idx hidx]
  have e : (rs.map fun r => fixRange r.1 r.2 n).getD (idx.getD ax 0) (0, 0) = fixRange lo hi n := by
    rw [List.getD_eq_getElem?_getD, List.getElem?_map, hg]; rfl
  rw [e]
  exact kerasUniInfer_nearest (hr _ (List.mem_of_getElem? hg)) hn _

/-- **C132** (PyTorch, and Keras with a learned range): the same. -/
theorem C132_range_own_channel (x : Tensor K) (rs : List (K × K)) (ax n : ℕ) (hn : 1 ≤ n)
    (hax : ax < x.shape.length) (hl : rs.length = x.shape.getD ax 0) (hr : ∀ r ∈ rs, r.1 < r.2) :
    ∃ y, rangeCall x rs ax n = some y ∧ y.shape = x.shape ∧
      ∀ idx, IsIndex x.shape idx → ∀ lo hi, rs[idx.getD ax 0]? = some (lo, hi) →
        uniformQuantize (x.get idx) lo hi n = some (y.get idx) := by
  obtain ⟨y, h1, h2, h3⟩ := rangeCall_eq x rs ax n hax hl
  refine ⟨y, h1, h2, ?_⟩
  intro idx hidx lo hi hg
  have e : rs.getD (idx.getD ax 0) (0, 0) = (lo, hi) := by
    rw [List.getD_eq_getElem?_getD, hg]; rfl
  rw [h3 idx hidx, e]
  exact C92_uniform _ _ _ _ (hr _ (List.mem_of_getElem? hg)) hn

/-- **C132** (Keras, straight-through): the exported quantizer, with the exported range, maps every weight
to the value it had in training. -/
theorem C132_keras_ste_export (x : Tensor K) (rs : List (K × K)) (ax n : ℕ) (hn : 1 ≤ n)
    (hax : ax < x.shape.length) (hl : rs.length = x.shape.getD ax 0) (hr : ∀ r ∈ rs, r.1 < r.2)
    (y : Tensor K) (hy : steKeras x rs ax n = some y) (idx : List ℕ) (hidx : IsIndex x.shape idx)
    (r : K × K) (hg : rs[idx.getD ax 0]? = some r) :
    kerasUniInfer (x.get idx) (uniConvert true r n).1 (uniConvert true r n).2 n = y.get idx := by
  obtain ⟨y', h1, _, h3⟩ := steKeras_eq x rs ax n hax hl
  rw [hy] at h1
  obtain rfl := Option.some.inj h1
  rw [h3 idx hidx]
  have e : (rs.map fun r => fixRange r.1 r.2 n).getD (idx.getD ax 0) (0, 0) = fixRange r.1 r.2 n := by
    rw [List.getD_eq_getElem?_getD, List.getElem?_map, hg]; rfl
  rw [e]
  unfold kerasUniInfer uniConvert
  simp only [if_true]
  rw [fixRange_idem _ _ _ (hr _ (List.mem_of_getElem? hg)) hn]

/-- The exported range describes the same grid, adjusted or not. -/
theorem uniConvert_grid (adjust : Bool) (r : K × K) (n : ℕ) (h : r.1 < r.2) (hn : 1 ≤ n) :
    fixRange (uniConvert adjust r n).1 (uniConvert adjust r n).2 n = fixRange r.1 r.2 n ∧
      (uniConvert adjust r n).1 < (uniConvert adjust r n).2 := by
  unfold uniConvert
  cases adjust
  · exact ⟨rfl, h⟩
  · obtain ⟨_, _, _, hlt, _, _, _⟩ := fixRange_spec r.1 r.2 n h hn
    exact ⟨fixRange_idem _ _ _ h hn, hlt⟩

/-- **C132** (PyTorch): the exported quantizer maps every weight to the value it had in training, unless the weight is half
way between two values of the grid (see `C132_torch_export_violated`). -/
theorem C132_torch_export_partial (x : K) (r : K × K) (n : ℕ) (adjust : Bool) (h : r.1 < r.2) (hn : 1 ≤ n)
    (ht : NoTie (UniformGrid (fixRange r.1 r.2 n).1 (fixRange r.1 r.2 n).2 n) x) :
    torchUniInfer x (uniConvert adjust r n).1 (uniConvert adjust r n).2 n = uniTrain x r.1 r.2 n := by
  obtain ⟨e, h'⟩ := uniConvert_grid adjust r n h hn
  have := torchUniInfer_nearest h' hn x
  rw [e] at this
  exact ht _ _ this (uniTrain_nearest h hn x)

/-- **C132** (Keras, learned range): the same (see `C132_keras_lsq_export_violated`). -/
theorem C132_keras_lsq_export_partial (x : K) (r : K × K) (n : ℕ) (h : r.1 < r.2) (hn : 1 ≤ n)
    (ht : NoTie (UniformGrid (fixRange r.1 r.2 n).1 (fixRange r.1 r.2 n).2 n) x) :
    kerasUniInfer x (uniConvert true r n).1 (uniConvert true r n).2 n = uniTrain x r.1 r.2 n := by
  obtain ⟨e, h'⟩ := uniConvert_grid true r n h hn
  have := kerasUniInfer_nearest h' hn x
  rw [e] at this
  exact ht _ _ this (uniTrain_nearest h hn x)

/-- **C132** (PyTorch) is false for a weight half way between two values: with two bits on `[-1, 2]`, the
weight 1/2 is trained as 1 and exported as 0, since only the exported quantizer rounds before it
adds the zero point. -/
theorem C132_torch_export_violated :
    uniTrain (1 / 2 : ℚ) (-1) 2 2 = 1 ∧
      torchUniInfer (1 / 2 : ℚ) (uniConvert true (-1, 2) 2).1 (uniConvert true (-1, 2) 2).2 2 = 0 := by
  decide +kernel

/-- **C132** (Keras, learned range) is false for a weight half way between two values: the weight -1/2 is trained as -1
and exported as 0, since TensorFlow rounds ties up. -/
theorem C132_keras_lsq_export_violated :
    uniTrain (-1 / 2 : ℚ) (-1) 2 2 = -1 ∧
      kerasUniInfer (-1 / 2 : ℚ) (uniConvert true (-1, 2) 2).1 (uniConvert true (-1, 2) 2).2 2 = 0 := by
  decide +kernel

/-- **C132** (Keras, learned range) is false for one range for the whole tensor: the quantizer cannot be
constructed, for any range. -/
theorem C132_keras_lsq_per_tensor_violated (rs : List (K × K)) :
    lsqKerasInit false rs = none ∧ (lsqKerasInit true rs).isSome := ⟨rfl, rfl⟩

/-! ### The hypotheses are met -/

/-- A kernel with the channels in the first of two dimensions, two ranges, one of them positive. -/
example : ∃ y, steKeras (K := ℚ) ⟨[2, 3], fun i => i.getD 0 0 * 5 + i.getD 1 0⟩ [(-1, 2), (1, 6)] 0 2 = some y ∧
    (indices y.shape).map y.get = [0, 1, 2, 6, 6, 6] := by
  refine ⟨_, rfl, ?_⟩
  decide +kernel

example : ∃ y, rangeCall (K := ℚ) ⟨[2, 3], fun i => i.getD 0 0 * 5 + i.getD 1 0⟩ [(-1, 2), (1, 6)] 0 2 = some y ∧
    (indices y.shape).map y.get = [0, 1, 2, 4, 6, 6] := by
  refine ⟨_, rfl, ?_⟩
  decide +kernel

/-- A weight on the grid has a single nearest value. -/
example : NoTie (UniformGrid (fixRange (-1 : ℚ) 2 2).1 (fixRange (-1 : ℚ) 2 2).2 2) 1 := by
  have h1 : (fixRange (-1 : ℚ) 2 2) = (-1, 2) := by decide +kernel
  rw [h1]
  have hm : (1 : ℚ) ∈ UniformGrid (-1 : ℚ) 2 2 := ⟨2, by norm_num, by norm_num⟩
  intro y z hy hz
  rw [nearest_self hy hm, nearest_self hz hm]

end MCT.Train
