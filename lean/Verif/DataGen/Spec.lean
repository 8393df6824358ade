/-
Specification of the generation of images: what a user of `pytorch_data_generation_experimental` and
`keras_data_generation_experimental` counts on.  Only the types of the model are used here.
-/
import Verif.DataGen.Model

namespace MCT.DataGen

variable {K : Type} [Field K] [LinearOrder K]

/-- An image with three axes of lengths `a`, `b` and `c`. -/
def Shaped (a b c : ℕ) (img : Img K) : Prop :=
  img.length = a ∧ ∀ x ∈ img, x.length = b ∧ ∀ y ∈ x, y.length = c

/-- The smallest and the largest value of a pixel of a channel after normalization: those of 0 and 255. -/
def lowest (mean std : K) : K := (0 - mean) / std
def highest (mean std : K) : K := (255 - mean) / std

/-- All pixels of channel `i` of an image of PyTorch lie between the images of 0 and 255 under the
normalization of the channel. -/
def InRange (mean std : List K) (img : Img K) : Prop :=
  ∀ (i : ℕ) (ch : List (List K)) (m s : K), img[i]? = some ch → mean[i]? = some m → std[i]? = some s →
    ∀ row ∈ ch, ∀ v ∈ row, lowest m s ≤ v ∧ v ≤ highest m s

/-- The valid value nearest to `x`. -/
def nearest (lo hi x : K) : K := if x < lo then lo else if hi < x then hi else x

/-- The number of batches: `n` images in batches of `size`, the last one perhaps smaller. -/
def numBatches (n size : ℕ) : ℕ := (n + size - 1) / size

/-- A schedule: in every iteration each batch comes once (`np.random.choice` without replacement). -/
def Schedule (nIter nBatches : ℕ) (order : ℕ → List ℕ) : Prop :=
  ∀ i < nIter, (order i).Perm (List.range nBatches)

/-- An optimizer changes the values of tensors, and not their shapes. -/
def KeepsShape (upd : Update K) : Prop :=
  ∀ i b s x, (upd i b s x).length = x.length ∧
    ∀ h w d, (∀ im ∈ x, Shaped h w d im) → ∀ im ∈ upd i b s x, Shaped h w d im

/-- Every batch was optimized once in every iteration, and nothing else was done. -/
def OnceEach (nIter nBatches : ℕ) (log : List (ℕ × ℕ)) : Prop :=
  ∀ i b, log.count (i, b) = if i < nIter ∧ b < nBatches then 1 else 0

/-- A configuration as the toolkit makes it: three channels with positive deviations (the three normalizations
of the toolkit are of this kind), the 3×3 smoothing kernel, a positive batch size. -/
structure Valid (c : Cfg K) : Prop where
  mean3 : c.mean.length = 3
  std3 : c.std.length = 3
  std_pos : ∀ s ∈ c.std, 0 < s
  kern3 : c.kern.length = 3
  size_pos : 0 < c.batchSize
  images_pos : 0 < c.nImages

end MCT.DataGen
