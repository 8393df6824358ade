/-
C117: what the generation of images returns.
-/
import Verif.DataGen.Lemmas
import Mathlib.Tactic.NormNum

namespace MCT.DataGen

variable {K : Type} [Field K] [LinearOrder K]

/-! ### One image -/

section ordered
variable [IsStrictOrderedRing K]

/-- Clipping in PyTorch: with positive deviations every pixel becomes the valid value nearest to it, channel by
channel; in particular a pixel that is valid is left alone. -/
theorem C117_clip_torch (mean std : List K) (hlen : mean.length = std.length) (hs : ∀ s ∈ std, 0 < s)
    (img : Img K) (himg : mean.length ≤ img.length) :
    ∃ out, clipTorch false (List.zipWith gridRow mean std) img = some out ∧ out.length = img.length ∧
      ∀ (i : ℕ) (ch : List (List K)) (m s : K), img[i]? = some ch → mean[i]? = some m → std[i]? = some s →
        out[i]? = some (ch.map fun row => row.map (nearest (lowest m s) (highest m s))) := by
  refine ⟨_, if_neg (by simp; omega), by simp; omega, ?_⟩
  intro i ch m s hi hm hsd
  obtain ⟨hi1, hi2⟩ := List.getElem?_eq_some_iff.mp hi
  obtain ⟨hm1, hm2⟩ := List.getElem?_eq_some_iff.mp hm
  obtain ⟨hs1, hs2⟩ := List.getElem?_eq_some_iff.mp hsd
  have hpos : 0 < s := hs s (hs2 ▸ List.getElem_mem hs1)
  rw [List.getElem?_append_left (by simp; omega), List.getElem?_zipWith, hi, List.getElem?_zipWith, hm, hsd]
  simp only [Option.some.injEq]
  congr 1
  funext row
  congr 1
  funext x
  simp only [clipOne, Bool.false_eq_true, if_false, gridRow_min hpos, gridRow_max hpos]
  exact clamp_eq_nearest (lowest_le_highest hpos)

theorem clipTorch_inRange (c : Cfg K) (hc : Valid c) {img im : Img K} {h w : ℕ} (hs : Shaped 3 h w img)
    (he : clipTorch false (grid c) img = some im) : InRange c.mean c.std im := by
  obtain ⟨out, ho, hl, hp⟩ := C117_clip_torch c.mean c.std (by rw [hc.mean3, hc.std3]) hc.std_pos img
    (by rw [hc.mean3, hs.1])
  have : out = im := Option.some.inj (ho.symm.trans he)
  subst this
  intro i ch m s hi hm hsd row hr v hv
  have hil : i < img.length := by
    have := (List.getElem?_eq_some_iff.mp hi).1; omega
  have := hp i img[i] m s (List.getElem?_eq_getElem hil) hm hsd
  rw [hi] at this
  have hch := Option.some.inj this
  rw [hch] at hr
  obtain ⟨r0, _, rfl⟩ := List.mem_map.mp hr
  obtain ⟨v0, _, rfl⟩ := List.mem_map.mp hv
  exact nearest_mem (lowest_le_highest (hc.std_pos s (List.mem_of_getElem? hsd)))

theorem finalizeTorch_spec (c : Cfg K) (hc : Valid c) (hp : c.pipe = .smoothing) {img : Img K}
    (hs : Shaped 3 (torchInitSize c).1 (torchInitSize c).2 img) :
    ∃ f, finalizeTorch c img = some f ∧ Shaped 3 c.outH c.outW f ∧
      (c.clipping = true → InRange c.mean c.std f) := by
  have h1 : Shaped 3 (torchInitSize c).1 (torchInitSize c).2 (img.map (smoothChannel c.kern)) := by
    refine ⟨by rw [List.length_map, hs.1], ?_⟩
    intro x hx
    obtain ⟨ch, hch, rfl⟩ := List.mem_map.mp hx
    exact smoothChannel_shape hc.kern3 (hs.2 ch hch).1 (hs.2 ch hch).2
  have hsz : c.outH ≤ (torchInitSize c).1 ∧ c.outW ≤ (torchInitSize c).2 := by
    unfold torchInitSize inputSize
    rw [hp]
    unfold initSide
    cases c.init <;> dsimp only <;> omega
  obtain ⟨im, him, himS⟩ := cropTorch_shaped h1 hsz.1 hsz.2
  unfold finalizeTorch
  rw [hp]
  dsimp only
  rw [him, Option.bind_some]
  cases hcl : c.clipping with
  | false => exact ⟨im, by simp, himS, by simp⟩
  | true =>
    obtain ⟨f, hf, hfS⟩ := clipTorch_shaped (r := false) (g := grid c) himS
      (by rw [grid_length c hc.mean3 hc.std3])
    exact ⟨f, by simpa using hf, hfS, fun _ => clipTorch_inRange c hc himS hf⟩

end ordered

theorem finalizeKeras_spec (c : Cfg K) (hc : Valid c) (hcl : c.clipping = true → c.pipe = .smoothing → 3 ≤ c.outH)
    {img : Img K} (hs : Shaped (kerasInitSize c).1 (kerasInitSize c).2 3 img) :
    ∃ f, finalizeKeras c img = some f ∧ Shaped c.outH c.outW 3 f := by
  unfold finalizeKeras
  cases hp : c.pipe with
  | identity =>
    refine ⟨img, rfl, ?_⟩
    unfold kerasInitSize inputSize at hs
    rw [hp] at hs
    exact hs
  | smoothing =>
    have h1 := smoothKeras_shape hc.kern3 hs
    have hsz : c.outH ≤ (kerasInitSize c).1 ∧ c.outW ≤ (kerasInitSize c).2 := by
      unfold kerasInitSize inputSize
      rw [hp]
      dsimp only; omega
    obtain ⟨im, him, himS⟩ := cropKeras_shaped h1 hsz.1 hsz.2
    dsimp only
    rw [him, Option.bind_some]
    cases hc' : c.clipping with
    | false => exact ⟨im, by simp, himS⟩
    | true =>
      obtain ⟨f, hf, hfS⟩ := clipKeras_shaped (r := false) (g := grid c) himS
        (by rw [grid_length c hc.mean3 hc.std3]; exact hcl hc' hp)
      exact ⟨f, by simpa using hf, hfS⟩

/-! ### All images -/

theorem splitTorch_flatten (fs : List (Batch K)) :
    (fs.map splitTorch).flatten = fs.flatten.map fun x => [x] := by
  induction fs with
  | nil => rfl
  | cons a l ih => simp only [List.map_cons, List.flatten_cons, ih, List.map_append]; rfl

theorem flatten_length_eq {α : Type} {l m : List (List α)} (h : l.map List.length = m.map List.length) :
    l.flatten.length = m.flatten.length := by
  rw [List.length_flatten, List.length_flatten, h]

theorem mapM_lengths {α β : Type} (f : List α → Option (List β)) (P : β → Prop) :
    ∀ (l : List (List α)), (∀ x ∈ l, ∃ y, f x = some y ∧ y.length = x.length ∧ ∀ z ∈ y, P z) →
      ∃ r, l.mapM f = some r ∧ r.map List.length = l.map List.length ∧ ∀ y ∈ r, ∀ z ∈ y, P z
  | [], _ => ⟨[], rfl, rfl, by simp⟩
  | a :: l, h => by
      obtain ⟨y, hy, hyl, py⟩ := h a (by simp)
      obtain ⟨r, hr, hl, pr⟩ := mapM_lengths f P l (fun x hx => h x (by simp [hx]))
      refine ⟨y :: r, by simp [List.mapM_cons, hy, hr], by simp [hl, hyl], ?_⟩
      intro z hz
      rcases List.mem_cons.mp hz with rfl | hz
      · exact py
      · exact pr z hz

theorem batches_ne_nil {c : Cfg K} (hc : Valid c) {noise : List (Img K)} (hn : noise.length = c.nImages) :
    batches c.batchSize noise ≠ [] := by
  have h0 : noise ≠ [] := by
    intro h
    rw [h] at hn
    have := hc.images_pos
    simp at hn
    omega
  rw [batches_cons h0 hc.size_pos]
  simp

/-- The common part of the theorems on PyTorch: `R` holds of every finalized image. -/
theorem genTorch_spec (c : Cfg K) (hc : Valid c) (hiter : 0 < c.nIter) (hsched : c.sched = .step → 3 ≤ c.nIter)
    {h w : ℕ} {R : Img K → Prop}
    (hF : ∀ im, Shaped 3 h w im → ∃ f, finalizeTorch c im = some f ∧ R f)
    (noise : List (Img K)) (hn : noise.length = c.nImages) (hns : ∀ im ∈ noise, Shaped 3 h w im)
    (manip : Manip K) (upd : Update K) (hu : KeepsShape upd) (order : ℕ → List ℕ)
    (ho : Schedule c.nIter (numBatches c.nImages c.batchSize) order) :
    ∃ s out, genTorch c manip upd order noise = some (s, out) ∧ out.length = c.nImages ∧
      (∀ p ∈ out, ∃ im, p = [im] ∧ R im) ∧
      OnceEach c.nIter (numBatches c.nImages c.batchSize) s.log := by
  have hb := batches_ne_nil hc hn
  have hbl : (batches c.batchSize noise).length = numBatches c.nImages c.batchSize := by
    rw [batches_length hc.size_pos, hn]
  rw [← hbl] at ho
  obtain ⟨s0, s, e0, e1, hi, hlog⟩ := optimize_spec (manip := manip) hF (hu.keeps 3 h w) c.allImages
    (fun x hx im him => hns im (mem_batches hc.size_pos hx him)) hb ho
  have hok : stepOk c = true := by
    unfold stepOk
    by_cases hst : c.sched = .step
    · have := hsched hst
      have : c.nIter / 3 ≠ 0 := by omega
      simp [this]
    · simp [hst]
  obtain ⟨fs, hfs, hfl, hfR⟩ := mapM_lengths (finalizeBatch (finalizeTorch c)) R s.images (by
    intro x hx
    exact finalizeBatch_total hF (hi.2 x hx))
  have honce := log_once ho
  rw [← hlog] at honce
  have hne : s.log ≠ [] := by
    intro h0
    have := honce 0 0
    rw [h0, if_pos ⟨hiter, List.length_pos_iff.mpr hb⟩] at this
    simp at this
  refine ⟨s, (fs.map splitTorch).flatten, ?_, ?_, ?_, ?_⟩
  · unfold genTorch
    rw [e0, Option.bind_some, hok, e1, Option.bind_some, hfs, Option.bind_some, if_neg hne]
  · rw [splitTorch_flatten, List.length_map]
    rw [flatten_length_eq (m := batches c.batchSize noise) (by rw [hfl, hi.1]), batches_flatten hc.size_pos, hn]
  · intro p hp
    rw [splitTorch_flatten] at hp
    obtain ⟨im, him, rfl⟩ := List.mem_map.mp hp
    obtain ⟨b, hb, hib⟩ := List.mem_flatten.mp him
    exact ⟨im, rfl, hfR b hb im hib⟩
  · rw [← hbl]; exact honce

section ordered
variable [IsStrictOrderedRing K]

/-- **C117** (PyTorch, the default pipeline).  For every schedule, every optimizer, every augmentation and all
initial images the generation returns exactly the number of images that was asked for, whatever the batch size,
each with three channels of the requested height and width, and with clipping all pixels lie in the valid range
of their channel.  Every batch was optimized once in every iteration. -/
theorem C117_torch (c : Cfg K) (hc : Valid c) (hp : c.pipe = .smoothing) (hiter : 0 < c.nIter)
    (hsched : c.sched = .step → 3 ≤ c.nIter)
    (noise : List (Img K)) (hn : noise.length = c.nImages)
    (hns : ∀ im ∈ noise, Shaped 3 (torchInitSize c).1 (torchInitSize c).2 im)
    (manip : Manip K) (upd : Update K) (hu : KeepsShape upd) (order : ℕ → List ℕ)
    (ho : Schedule c.nIter (numBatches c.nImages c.batchSize) order) :
    ∃ s out, genTorch c manip upd order noise = some (s, out) ∧ out.length = c.nImages ∧
      (∀ p ∈ out, ∃ im, p = [im] ∧ Shaped 3 c.outH c.outW im ∧
        (c.clipping = true → InRange c.mean c.std im)) ∧
      OnceEach c.nIter (numBatches c.nImages c.batchSize) s.log :=
  genTorch_spec c hc hiter hsched (fun _ h => finalizeTorch_spec c hc hp h) noise hn hns manip upd hu order ho

end ordered

/-- **C117, false for the identity pipeline of PyTorch.**  The initial images are 32 pixels higher and wider
than asked (30 for diverse samples), and the identity pipeline does not crop: every image returned has that
size, and not the requested one. -/
theorem C117_torch_identity_violated (c : Cfg K) (hc : Valid c) (hp : c.pipe = .identity) (hiter : 0 < c.nIter)
    (hsched : c.sched = .step → 3 ≤ c.nIter)
    (noise : List (Img K)) (hn : noise.length = c.nImages)
    (hns : ∀ im ∈ noise, Shaped 3 (torchInitSize c).1 (torchInitSize c).2 im)
    (manip : Manip K) (upd : Update K) (hu : KeepsShape upd) (order : ℕ → List ℕ)
    (ho : Schedule c.nIter (numBatches c.nImages c.batchSize) order) :
    ∃ s out, genTorch c manip upd order noise = some (s, out) ∧ out.length = c.nImages ∧
      ∀ p ∈ out, ∃ im, p = [im] ∧
        Shaped 3 (c.outH + (if c.init = .gaussian then 32 else 30))
          (c.outW + (if c.init = .gaussian then 32 else 30)) im ∧
        ¬ Shaped 3 c.outH c.outW im := by
  have hsz : torchInitSize c = (c.outH + (if c.init = .gaussian then 32 else 30),
      c.outW + (if c.init = .gaussian then 32 else 30)) := by
    unfold torchInitSize inputSize initSide
    rw [hp]
    cases c.init <;> simp
  rw [hsz] at hns
  obtain ⟨s, out, e, hl, hr, _⟩ := genTorch_spec c hc hiter hsched
    (R := fun im => Shaped 3 (c.outH + (if c.init = .gaussian then 32 else 30))
          (c.outW + (if c.init = .gaussian then 32 else 30)) im)
    (fun im h => ⟨im, by unfold finalizeTorch; rw [hp], h⟩) noise hn hns manip upd hu order ho
  refine ⟨s, out, e, hl, ?_⟩
  intro p hpm
  obtain ⟨im, rfl, him⟩ := hr p hpm
  refine ⟨im, rfl, him, ?_⟩
  intro h2
  cases im with
  | nil => simp [Shaped] at him
  | cons a l =>
    have h3 := (him.2 a (by simp)).1
    have h4 := (h2.2 a (by simp)).1
    split_ifs at h3 <;> omega

theorem splitKeras_one {α : Type} (b : List α) (n : ℕ) (hn : 0 < n) (h : b.length = n) :
    splitKeras n b = some (b.map fun x => [x]) := by
  unfold splitKeras
  rw [if_neg (by omega), if_neg (by simp [h])]
  congr 1
  rw [h, Nat.div_self hn]
  apply List.ext_getElem
  · simp [h]
  · intro i h1 h2
    simp only [List.length_map, List.length_range] at h1
    simp only [List.getElem_map, List.getElem_range, mul_one]
    rw [List.take_one, List.head?_drop, List.getElem?_eq_getElem (by omega)]
    rfl

/-- **C117** (Keras).  If the batch size divides the number of images, the generation returns exactly the
number of images that was asked for, each of the requested height and width with three channels, and every
batch was optimized once in every iteration.  If it does not, the generation fails: after all the iterations
the last batch, which is smaller, cannot be split into as many images as a batch has. -/
theorem C117_keras (c : Cfg K) (hc : Valid c) (hsched : c.sched = .plateau)
    (hcl : c.clipping = true → c.pipe = .smoothing → 3 ≤ c.outH)
    (noise : List (Img K)) (hn : noise.length = c.nImages)
    (hns : ∀ im ∈ noise, Shaped (kerasInitSize c).1 (kerasInitSize c).2 3 im)
    (manip : Manip K) (upd : Update K) (hu : KeepsShape upd) (order : ℕ → List ℕ)
    (ho : Schedule c.nIter (numBatches c.nImages c.batchSize) order) :
    (c.batchSize ∣ c.nImages →
      ∃ s out, genKeras c manip upd order noise = some (s, out) ∧ out.length = c.nImages ∧
        (∀ p ∈ out, ∃ im, p = [im] ∧ Shaped c.outH c.outW 3 im) ∧
        OnceEach c.nIter (numBatches c.nImages c.batchSize) s.log) ∧
    (¬ c.batchSize ∣ c.nImages → genKeras c manip upd order noise = none) := by
  have hF : ∀ im, Shaped (kerasInitSize c).1 (kerasInitSize c).2 3 im →
      ∃ f, finalizeKeras c im = some f ∧ Shaped c.outH c.outW 3 f := fun im h => finalizeKeras_spec c hc hcl h
  have hb := batches_ne_nil hc hn
  have hbl : (batches c.batchSize noise).length = numBatches c.nImages c.batchSize := by
    rw [batches_length hc.size_pos, hn]
  rw [← hbl] at ho
  obtain ⟨s0, s, e0, e1, hi, hlog⟩ := optimize_spec (manip := manip) hF (hu.keeps _ _ 3) c.allImages
    (fun x hx im him => hns im (mem_batches hc.size_pos hx him)) hb ho
  have honce := log_once ho
  rw [← hlog] at honce
  have hgen : genKeras c manip upd order noise =
      (s.images.mapM fun b => (finalizeBatch (finalizeKeras c) b).bind (splitKeras c.batchSize)).map
          fun ps => (s, ps.flatten) := by
    unfold genKeras
    rw [if_neg (by simp [hsched]), e0, Option.bind_some, e1, Option.bind_some]
  constructor
  · intro hd
    obtain ⟨ps, hps, hpl, hpR⟩ := mapM_lengths
      (fun b => (finalizeBatch (finalizeKeras c) b).bind (splitKeras c.batchSize))
      (fun p => ∃ im, p = [im] ∧ Shaped c.outH c.outW 3 im) s.images (by
        intro x hx
        obtain ⟨f, hf, hfl, hfR⟩ := finalizeBatch_total hF (hi.2 x hx)
        have hxl : x.length = c.batchSize := by
          have hmem : x.length ∈ (batches c.batchSize noise).map List.length := by
            rw [← hi.1]; exact List.mem_map_of_mem hx
          obtain ⟨b, hbm, hbe⟩ := List.mem_map.mp hmem
          rw [← hbe]
          exact batches_dvd hc.size_pos noise (by rw [hn]; exact hd) b hbm
        refine ⟨f.map fun x => [x], ?_, by rw [List.length_map, hfl], ?_⟩
        · rw [hf, Option.bind_some, splitKeras_one f _ hc.size_pos (by rw [hfl, hxl])]
        · intro z hz
          obtain ⟨im, him, rfl⟩ := List.mem_map.mp hz
          exact ⟨im, rfl, hfR im him⟩)
    refine ⟨s, ps.flatten, ?_, ?_, ?_, ?_⟩
    · rw [hgen, hps, Option.map_some]
    · have h1 : ps.map List.length = (batches c.batchSize noise).map List.length := by rw [hpl, hi.1]
      rw [List.length_flatten, h1, ← List.length_flatten, batches_flatten hc.size_pos, hn]
    · intro p hp
      obtain ⟨q, hq, hpq⟩ := List.mem_flatten.mp hp
      exact hpR q hq p hpq
    · rw [← hbl]; exact honce
  · intro hd
    obtain ⟨i, b, hib, hb0, hbn⟩ := batches_not_dvd hc.size_pos noise (by rw [hn]; exact hd)
    have hlen : (s.images.map List.length)[i]? = some b.length := by
      rw [hi.1, List.getElem?_map, hib]; rfl
    rw [List.getElem?_map, Option.map_eq_some_iff] at hlen
    obtain ⟨x, hx, hxl⟩ := hlen
    have hxm := List.mem_of_getElem? hx
    obtain ⟨f, hf, hfl, _⟩ := finalizeBatch_total hF (hi.2 x hxm)
    rw [hgen, mapM_eq_none _ hxm]
    · rfl
    · rw [hf, Option.bind_some]
      have h0 := hc.size_pos
      unfold splitKeras
      rw [if_neg (by omega), if_pos]
      rw [hfl, hxl, Nat.mod_eq_of_lt hbn]
      omega

/-- **C117, false for clipping in Keras.**  The valid range of channel `i` is applied to row `i` of the image,
and all rows but the first three are set to zero: whatever the image was, below its third row it becomes
blank. -/
theorem C117_keras_clip_violated (g : List (List K)) (hg : g.length = 3) (img out : Img K)
    (h : clipKeras false g img = some out) :
    ∀ (i : ℕ) (row : List (List K)), 3 ≤ i → out[i]? = some row → ∀ px ∈ row, ∀ v ∈ px, v = 0 := by
  unfold clipKeras at h
  split_ifs at h with hl
  have h := Option.some.inj h
  subst h
  intro i row hi hrow px hpx v hv
  rw [List.getElem?_append_right (by simp; omega), List.getElem?_map, Option.map_eq_some_iff] at hrow
  obtain ⟨r0, _, rfl⟩ := hrow
  obtain ⟨p0, _, rfl⟩ := List.mem_map.mp hpx
  obtain ⟨_, _, rfl⟩ := List.mem_map.mp hv
  rfl

/-- **C117, false for few iterations in PyTorch.**  Without iterations the generation fails at its last message,
and with the step scheduler and fewer than three iterations it divides by zero. -/
theorem C117_torch_iterations_violated (c : Cfg K) (hc : Valid c)
    (noise : List (Img K)) (hn : noise.length = c.nImages)
    (manip : Manip K) (upd : Update K) (order : ℕ → List ℕ)
    (ho : Schedule c.nIter (numBatches c.nImages c.batchSize) order)
    (h : c.nIter = 0 ∨ (c.sched = .step ∧ c.nIter < 3)) :
    genTorch c manip upd order noise = none := by
  have hb := batches_ne_nil hc hn
  have hbl : (batches c.batchSize noise).length = numBatches c.nImages c.batchSize := by
    rw [batches_length hc.size_pos, hn]
  rw [← hbl] at ho
  unfold genTorch
  cases e0 : start c.allImages (finalizeBatch (finalizeTorch c)) (batches c.batchSize noise) with
  | none => rfl
  | some s0 =>
    have hl0 : s0.log = [] := by
      unfold start at e0
      split_ifs at e0
      · obtain ⟨ks, _, rfl⟩ := Option.map_eq_some_iff.mp e0
        rfl
      · rw [← Option.some.inj e0]
    rw [Option.bind_some]
    by_cases hz : c.nIter = 0
    · rw [hz, List.range_zero, runIters, Option.bind_some]
      cases s0.images.mapM (finalizeBatch (finalizeTorch c)) with
      | none => rfl
      | some fs => rw [Option.bind_some, if_pos hl0]
    · obtain ⟨hst, hlt⟩ := h.resolve_left hz
      have hok : stepOk c = false := by
        unfold stepOk
        have : c.nIter / 3 = 0 := by omega
        simp [hst, this]
      have hrange : List.range c.nIter = 0 :: (List.range (c.nIter - 1)).map (· + 1) := by
        obtain ⟨k, hk⟩ := Nat.exists_eq_succ_of_ne_zero hz
        rw [hk, List.range_succ_eq_map]
        simp
      have hrun : runIters c.allImages (stepOk c) (finalizeBatch (finalizeTorch c)) manip upd order
          (List.range c.nIter) s0 = none := by
        rw [hrange, runIters]
        have hp := ho 0 (by omega)
        cases hord : order 0 with
        | nil =>
          rw [hord] at hp
          have := hp.length_eq
          simp at this
          exact absurd (List.length_eq_zero_iff.mp this.symm) hb
        | cons b l =>
          rw [runOrder]
          have : stepBatch c.allImages (stepOk c) (finalizeBatch (finalizeTorch c)) manip upd 0 b s0 = none := by
            unfold stepBatch
            cases s0.images[b]? with
            | none => rfl
            | some x => simp only [hok, if_true]
          rw [this]; rfl
      rw [hrun]; rfl

/-! ### The hypotheses can be met -/

/-- A small configuration: five images of 2×1 in batches of two. -/
def demo (pipe : Pipe) (n : ℕ) : Cfg ℚ where
  nImages := n
  batchSize := 2
  nIter := 2
  outH := 2
  outW := 1
  extraH := 1
  extraW := 0
  pipe := pipe
  clipping := false
  init := .gaussian
  sched := .plateau
  allImages := true
  mean := [127, 127, 127]
  std := [127, 127, 127]
  kern := [[0, 0, 0], [0, 1, 0], [0, 0, 0]]

theorem demo_valid (pipe : Pipe) (n : ℕ) (h : 0 < n) : Valid (demo pipe n) where
  mean3 := rfl
  std3 := rfl
  std_pos := by simp [demo]
  kern3 := rfl
  size_pos := by simp [demo]
  images_pos := h

/-- An optimizer that adds one to every pixel. -/
def addOne : Update ℚ := fun _ _ _ x => x.map fun im => im.map fun a => a.map fun r => r.map (· + 1)

theorem addOne_keeps : KeepsShape addOne := by
  intro i b s x
  refine ⟨by simp [addOne], ?_⟩
  intro h w d hx im him
  obtain ⟨im0, h0, rfl⟩ := List.mem_map.mp him
  obtain ⟨h1, h2⟩ := hx im0 h0
  refine ⟨by simp [h1], ?_⟩
  intro a ha
  obtain ⟨a0, ha0, rfl⟩ := List.mem_map.mp ha
  refine ⟨by simp [(h2 a0 ha0).1], ?_⟩
  intro y hy
  obtain ⟨y0, hy0, rfl⟩ := List.mem_map.mp hy
  simp [(h2 a0 ha0).2 y0 hy0]

/-- Three images in batches of two: PyTorch returns three images of the requested size. -/
example (noise : List (Img ℚ)) (hn : noise.length = 3) (hns : ∀ im ∈ noise, Shaped 3 35 33 im) :
    ∃ s out, genTorch (demo .smoothing 3) (fun _ _ x => x) addOne
      (fun i => if i = 0 then [1, 0] else [0, 1]) noise = some (s, out) ∧ out.length = 3 := by
  obtain ⟨s, out, e, hl, _⟩ := C117_torch (demo .smoothing 3) (demo_valid .smoothing 3 (by omega)) rfl
    (by simp [demo]) (by simp [demo]) noise hn hns (fun _ _ x => x) addOne addOne_keeps
    (fun i => if i = 0 then [1, 0] else [0, 1]) (by
      intro i _
      by_cases h : i = 0
      · simp only [if_pos h]; decide
      · simp only [if_neg h]; decide)
  exact ⟨s, out, e, hl⟩

/-- The same three images in Keras: an exception. -/
example (noise : List (Img ℚ)) (hn : noise.length = 3) (hns : ∀ im ∈ noise, Shaped 3 1 3 im) :
    genKeras (demo .smoothing 3) (fun _ _ x => x) addOne
      (fun i => if i = 0 then [1, 0] else [0, 1]) noise = none :=
  (C117_keras (demo .smoothing 3) (demo_valid .smoothing 3 (by omega)) rfl (by simp [demo]) noise hn hns
    (fun _ _ x => x) addOne addOne_keeps (fun i => if i = 0 then [1, 0] else [0, 1]) (by
      intro i _
      by_cases h : i = 0
      · simp only [if_pos h]; decide
      · simp only [if_neg h]; decide)).2 (by decide)

/-- A run of PyTorch on concrete images, through the identity pipeline. -/
example : ((genTorch (demo .identity 3) (fun _ _ x => x) addOne
    (fun i => if i = 0 then [1, 0] else [0, 1]) [[[[1]]], [[[2]]], [[[3]]]]).map fun r => r.2) =
    some [[[[[3]]]], [[[[4]]]], [[[[5]]]]] := by decide +kernel

/-- **C117, false for clipping with the identity pipeline of PyTorch**: a pixel of 300, where no normalization
allows more than 255, is returned although clipping is on. -/
theorem C117_torch_identity_clip_violated :
    ((genTorch { demo .identity 1 with clipping := true, mean := [0, 0, 0], std := [1, 1, 1] }
      (fun _ _ x => x) addOne (fun _ => [0]) [[[[298]], [[0]], [[0]]]]).map fun r => r.2) =
      some [[[[[300]], [[2]], [[2]]]]] ∧
    ¬ InRange ([0, 0, 0] : List ℚ) [1, 1, 1] [[[300]], [[2]], [[2]]] := by
  refine ⟨by decide +kernel, ?_⟩
  intro h
  have := (h 0 [[300]] 0 1 rfl rfl rfl [300] (by simp) 300 (by simp)).2
  unfold highest at this
  norm_num at this

/-- Clipping of one image of Keras with four rows: the last row, all of it valid, is gone. -/
example : clipKeras false (List.zipWith gridRow ([0, 0, 0] : List ℚ) [1, 1, 1])
    [[[1, 2, 3]], [[4, 5, 6]], [[7, 8, 300]], [[9, 9, 9]]] =
    some [[[1, 2, 3]], [[4, 5, 6]], [[7, 8, 255]], [[0, 0, 0]]] := by decide +kernel

example : clipTorch false (List.zipWith gridRow ([0, 0, 0] : List ℚ) [1, 1, 1])
    [[[1, -2]], [[4, 256]], [[7, 8]]] = some [[[1, 0]], [[4, 255]], [[7, 8]]] := by decide +kernel

end MCT.DataGen
