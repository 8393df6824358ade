/-
Lemmas about the pieces of the generation of images: clipping, smoothing, cropping, batches and the loops.
-/
import Verif.DataGen.Spec
import Verif.Common.Lists
import Mathlib.Data.Nat.ModEq
import Mathlib.Tactic.Linarith
import Mathlib.Data.List.Count

namespace MCT.DataGen

variable {K : Type} [Field K] [LinearOrder K]

/-! ### mapM -/

theorem mapM_total {α β : Type} (f : α → Option β) (P : β → Prop) :
    ∀ (l : List α), (∀ x ∈ l, ∃ y, f x = some y ∧ P y) →
      ∃ r, l.mapM f = some r ∧ r.length = l.length ∧ ∀ y ∈ r, P y
  | [], _ => ⟨[], rfl, rfl, by simp⟩
  | a :: l, h => by
      obtain ⟨y, hy, py⟩ := h a (by simp)
      obtain ⟨r, hr, hl, pr⟩ := mapM_total f P l (fun x hx => h x (by simp [hx]))
      refine ⟨y :: r, ?_, by simp [hl], ?_⟩
      · simp [List.mapM_cons, hy, hr]
      · intro z hz
        rcases List.mem_cons.mp hz with rfl | hz
        · exact py
        · exact pr z hz

theorem mapM_eq_none {α β : Type} (f : α → Option β) {l : List α} {x : α} (hx : x ∈ l) (h : f x = none) :
    l.mapM f = none := by
  induction l with
  | nil => simp at hx
  | cons a l ih =>
    rcases List.mem_cons.mp hx with rfl | hx
    · simp [List.mapM_cons, h]
    · rw [List.mapM_cons]
      cases f a with
      | none => rfl
      | some y => simp [ih hx]

/-! ### Clipping -/

section ordered
variable [IsStrictOrderedRing K]

theorem clamp_eq_nearest {lo hi x : K} (h : lo ≤ hi) : clamp lo hi x = nearest lo hi x := by
  unfold clamp nearest
  by_cases h1 : x < lo
  · rw [if_pos h1, max_eq_right h1.le, min_eq_left h]
  · rw [if_neg h1, max_eq_left (not_lt.mp h1)]
    by_cases h2 : hi < x
    · rw [if_pos h2, min_eq_right h2.le]
    · rw [if_neg h2, min_eq_left (not_lt.mp h2)]

theorem foldl_min_le (l : List K) : ∀ (a : K), l.foldl min a ≤ a ∧ ∀ x ∈ l, l.foldl min a ≤ x := by
  induction l with
  | nil => intro a; simp
  | cons b l ih =>
    intro a
    obtain ⟨h1, h2⟩ := ih (min a b)
    simp only [List.foldl_cons, List.mem_cons, forall_eq_or_imp]
    exact ⟨h1.trans (min_le_left _ _), h1.trans (min_le_right _ _), h2⟩

theorem foldl_min_mem (l : List K) : ∀ (a : K), l.foldl min a = a ∨ l.foldl min a ∈ l := by
  induction l with
  | nil => intro a; simp
  | cons b l ih =>
    intro a
    simp only [List.foldl_cons, List.mem_cons]
    rcases ih (min a b) with h | h
    · rcases min_choice a b with h' | h' <;> rw [h'] at h <;> simp [h', h]
    · exact Or.inr (Or.inr h)

theorem le_foldl_max (l : List K) : ∀ (a : K), a ≤ l.foldl max a ∧ ∀ x ∈ l, x ≤ l.foldl max a := by
  induction l with
  | nil => intro a; simp
  | cons b l ih =>
    intro a
    obtain ⟨h1, h2⟩ := ih (max a b)
    simp only [List.foldl_cons, List.mem_cons, forall_eq_or_imp]
    exact ⟨(le_max_left _ _).trans h1, (le_max_right _ _).trans h1, h2⟩

theorem foldl_max_mem (l : List K) : ∀ (a : K), l.foldl max a = a ∨ l.foldl max a ∈ l := by
  induction l with
  | nil => intro a; simp
  | cons b l ih =>
    intro a
    simp only [List.foldl_cons, List.mem_cons]
    rcases ih (max a b) with h | h
    · rcases max_choice a b with h' | h' <;> rw [h'] at h <;> simp [h', h]
    · exact Or.inr (Or.inr h)

theorem rowMin_eq {l : List K} {m : K} (hm : m ∈ l) (h : ∀ x ∈ l, m ≤ x) : rowMin l = m := by
  cases l with
  | nil => simp at hm
  | cons a l =>
    have hle := foldl_min_le l a
    apply le_antisymm
    · rcases List.mem_cons.mp hm with rfl | hm
      · exact hle.1
      · exact hle.2 m hm
    · rcases foldl_min_mem l a with e | e
      · show m ≤ l.foldl min a
        rw [e]; exact h a (by simp)
      · exact h _ (List.mem_cons_of_mem _ e)

theorem rowMax_eq {l : List K} {m : K} (hm : m ∈ l) (h : ∀ x ∈ l, x ≤ m) : rowMax l = m := by
  cases l with
  | nil => simp at hm
  | cons a l =>
    have hle := le_foldl_max l a
    apply le_antisymm
    · rcases foldl_max_mem l a with e | e
      · show l.foldl max a ≤ m
        rw [e]; exact h a (by simp)
      · exact h _ (List.mem_cons_of_mem _ e)
    · rcases List.mem_cons.mp hm with rfl | hm
      · exact hle.1
      · exact hle.2 m hm

theorem gridRow_min {m s : K} (hs : 0 < s) : rowMin (gridRow m s) = lowest m s := by
  apply rowMin_eq
  · exact List.mem_map.mpr ⟨0, by simp, by simp [lowest]⟩
  · intro x hx
    obtain ⟨v, _, rfl⟩ := List.mem_map.mp hx
    exact div_le_div_of_nonneg_right (sub_le_sub_right (Nat.cast_nonneg v) m) hs.le

theorem gridRow_max {m s : K} (hs : 0 < s) : rowMax (gridRow m s) = highest m s := by
  apply rowMax_eq
  · exact List.mem_map.mpr ⟨255, by simp, by simp [highest]⟩
  · intro x hx
    obtain ⟨v, hv, rfl⟩ := List.mem_map.mp hx
    have hv : v ≤ 255 := by have := List.mem_range.mp hv; omega
    have : (v : K) ≤ 255 := by exact_mod_cast hv
    exact div_le_div_of_nonneg_right (sub_le_sub_right this m) hs.le

theorem lowest_le_highest {m s : K} (hs : 0 < s) : lowest m s ≤ highest m s :=
  div_le_div_of_nonneg_right (by linarith) hs.le

theorem nearest_mem {lo hi x : K} (h : lo ≤ hi) : lo ≤ nearest lo hi x ∧ nearest lo hi x ≤ hi := by
  unfold nearest
  by_cases h1 : x < lo
  · rw [if_pos h1]; exact ⟨le_rfl, h⟩
  · rw [if_neg h1]
    by_cases h2 : hi < x
    · rw [if_pos h2]; exact ⟨h, le_rfl⟩
    · rw [if_neg h2]; exact ⟨not_lt.mp h1, not_lt.mp h2⟩

end ordered

theorem grid_length (c : Cfg K) (hm : c.mean.length = 3) (hs : c.std.length = 3) : (grid c).length = 3 := by
  simp [grid, hm, hs]

theorem clipTorch_shaped {r : Bool} {g : List (List K)} {img : Img K} {a b c : ℕ} (h : Shaped a b c img)
    (hg : g.length ≤ a) : ∃ im, clipTorch r g img = some im ∧ Shaped a b c im := by
  obtain ⟨hl, hx⟩ := h
  refine ⟨_, if_neg (by omega), ?_, ?_⟩
  · simp only [List.length_append, List.length_zipWith, List.length_drop]; omega
  · intro x hxm
    rcases List.mem_append.mp hxm with hxm | hxm
    · obtain ⟨i, hi, rfl⟩ := List.getElem_of_mem hxm
      simp only [List.getElem_zipWith, List.length_map, List.mem_map, forall_exists_index, and_imp,
        forall_apply_eq_imp_iff₂]
      have := hx _ (List.getElem_mem (l := img) (n := i) (by simp at hi; omega))
      exact ⟨this.1, fun y hy => this.2 y hy⟩
    · exact hx x (List.mem_of_mem_drop hxm)

theorem clipKeras_shaped {r : Bool} {g : List (List K)} {img : Img K} {a b c : ℕ} (h : Shaped a b c img)
    (hg : g.length ≤ a) : ∃ im, clipKeras r g img = some im ∧ Shaped a b c im := by
  obtain ⟨hl, hx⟩ := h
  refine ⟨_, if_neg (by omega), ?_, ?_⟩
  · simp only [List.length_append, List.length_zipWith, List.length_map, List.length_drop]; omega
  · intro x hxm
    rcases List.mem_append.mp hxm with hxm | hxm
    · obtain ⟨i, hi, rfl⟩ := List.getElem_of_mem hxm
      simp only [List.getElem_zipWith, List.length_map, List.mem_map, forall_exists_index, and_imp,
        forall_apply_eq_imp_iff₂]
      have := hx _ (List.getElem_mem (l := img) (n := i) (by simp at hi; omega))
      exact ⟨this.1, fun y hy => this.2 y hy⟩
    · obtain ⟨z, hz, rfl⟩ := List.mem_map.mp hxm
      have := hx z (List.mem_of_mem_drop hz)
      simp only [List.length_map, List.mem_map, forall_exists_index, and_imp, forall_apply_eq_imp_iff₂]
      exact ⟨this.1, fun y hy => this.2 y hy⟩

/-! ### Smoothing and cropping -/

theorem smoothChannel_shape {kern m : List (List K)} {h w : ℕ} (hk : kern.length = 3)
    (hh : m.length = h) (hw : ∀ r ∈ m, r.length = w) :
    (smoothChannel kern m).length = h ∧ ∀ r ∈ smoothChannel kern m, r.length = w := by
  unfold smoothChannel
  rw [hk]
  refine ⟨by simp; omega, ?_⟩
  intro r hr
  obtain ⟨i, hi, rfl⟩ := List.mem_map.mp hr
  have hi := List.mem_range.mp hi
  cases m with
  | nil => simp at hi
  | cons a m =>
    have := hw a (by simp)
    simp; omega

theorem smoothKeras_shape {kern : List (List K)} {img : Img K} {h w : ℕ} (hk : kern.length = 3)
    (hs : Shaped h w 3 img) : Shaped h w 3 (smoothKeras kern img) := by
  obtain ⟨hh, hw⟩ := hs
  unfold smoothKeras
  rw [hk]
  refine ⟨by simp; omega, ?_⟩
  intro r hr
  obtain ⟨i, hi, rfl⟩ := List.mem_map.mp hr
  have hi := List.mem_range.mp hi
  cases img with
  | nil => simp at hi
  | cons a m =>
    have := (hw a (by simp)).1
    refine ⟨by simp; omega, ?_⟩
    intro y hy
    obtain ⟨j, _, rfl⟩ := List.mem_map.mp hy
    simp

theorem roundHalf_le (d : ℕ) : roundHalf d ≤ d := by
  unfold roundHalf; split_ifs <;> omega

theorem centerCropTorch_spec {α : Type} {c : ℕ} {l : List α} (h : c ≤ l.length) :
    ∃ r, centerCropTorch c l = some r ∧ r.length = c ∧ ∀ x ∈ r, x ∈ l := by
  refine ⟨_, if_neg (by omega), ?_, ?_⟩
  · have := roundHalf_le (l.length - c)
    simp; omega
  · intro x hx; exact List.mem_of_mem_drop (List.mem_of_mem_take hx)

theorem centerCropKeras_spec {α : Type} {c : ℕ} {l : List α} (h : c ≤ l.length) :
    ∃ r, centerCropKeras c l = some r ∧ r.length = c ∧ ∀ x ∈ r, x ∈ l := by
  refine ⟨_, if_neg (by omega), ?_, ?_⟩
  · simp; omega
  · intro x hx; exact List.mem_of_mem_drop (List.mem_of_mem_take hx)

theorem cropTorch_shaped {d h w H W : ℕ} {img : Img K} (hs : Shaped d H W img) (hh : h ≤ H) (hw : w ≤ W) :
    ∃ im, cropTorch h w img = some im ∧ Shaped d h w im := by
  obtain ⟨r, hr, hl, hp⟩ := mapM_total
    (fun ch : List (List K) => (centerCropTorch h ch).bind fun rows => rows.mapM (centerCropTorch w))
    (fun ch => ch.length = h ∧ ∀ y ∈ ch, y.length = w) img (by
      intro ch hch
      obtain ⟨h1, h2⟩ := hs.2 ch hch
      obtain ⟨rows, hrows, hrl, hrm⟩ := centerCropTorch_spec (c := h) (l := ch) (by omega)
      obtain ⟨z, hz, hzl, hzp⟩ := mapM_total (centerCropTorch w) (fun y : List K => y.length = w) rows (by
        intro y hy
        obtain ⟨q, hq, hql, _⟩ := centerCropTorch_spec (c := w) (l := y) (by rw [h2 y (hrm y hy)]; omega)
        exact ⟨q, hq, hql⟩)
      exact ⟨z, by rw [hrows, Option.bind_some, hz], by omega, hzp⟩)
  exact ⟨r, hr, by rw [hl, hs.1], hp⟩

theorem cropKeras_shaped {d h w H W : ℕ} {img : Img K} (hs : Shaped H W d img) (hh : h ≤ H) (hw : w ≤ W) :
    ∃ im, cropKeras h w img = some im ∧ Shaped h w d im := by
  obtain ⟨rows, hrows, hrl, hrm⟩ := centerCropKeras_spec (c := h) (l := img) (by rw [hs.1]; exact hh)
  obtain ⟨z, hz, hzl, hzp⟩ := mapM_total (centerCropKeras w)
    (fun x : List (List K) => x.length = w ∧ ∀ y ∈ x, y.length = d) rows (by
      intro y hy
      obtain ⟨h1, h2⟩ := hs.2 y (hrm y hy)
      obtain ⟨q, hq, hql, hqm⟩ := centerCropKeras_spec (c := w) (l := y) (by omega)
      exact ⟨q, hq, hql, fun t ht => h2 t (hqm t ht)⟩)
  exact ⟨z, by unfold cropKeras; rw [hrows, Option.bind_some, hz], by omega, hzp⟩

/-! ### Batches -/

theorem batches_nil {α : Type} (n : ℕ) : batches n ([] : List α) = [] := by
  rw [batches]; simp

theorem batches_cons {α : Type} {n : ℕ} {l : List α} (hl : l ≠ []) (hn : 0 < n) :
    batches n l = l.take n :: batches n (l.drop n) := by
  rw [batches, dif_neg (by simp [hl]; omega)]

/-- Induction along the batches. -/
theorem batches_induction {α : Type} {n : ℕ} (hn : 0 < n) (P : List α → Prop) (h0 : P [])
    (h1 : ∀ l, l ≠ [] → P (l.drop n) → P l) : ∀ l, P l := by
  intro l
  induction hk : l.length using Nat.strong_induction_on generalizing l with
  | _ k ih =>
    by_cases hl : l = []
    · rw [hl]; exact h0
    · have := List.length_pos_iff.mpr hl
      exact h1 l hl (ih (l.drop n).length (by simp; omega) _ rfl)

theorem batches_flatten {α : Type} {n : ℕ} (hn : 0 < n) (l : List α) : (batches n l).flatten = l := by
  refine batches_induction hn (fun l => (batches n l).flatten = l) (by simp [batches_nil]) ?_ l
  intro l hl ih
  rw [batches_cons hl hn, List.flatten_cons, ih, List.take_append_drop]

theorem batches_length {α : Type} {n : ℕ} (hn : 0 < n) (l : List α) :
    (batches n l).length = numBatches l.length n := by
  refine batches_induction hn (fun l => (batches n l).length = numBatches l.length n) ?_ ?_ l
  · unfold numBatches
    rw [batches_nil, List.length_nil, List.length_nil, Nat.div_eq_of_lt (by omega)]
  · intro l hl ih
    have := List.length_pos_iff.mpr hl
    rw [batches_cons hl hn, List.length_cons, ih]
    unfold numBatches
    rw [List.length_drop]
    by_cases h : n ≤ l.length
    · rw [show l.length + n - 1 = (l.length - n + n - 1) + n by omega, Nat.add_div_right _ hn]
    · rw [show l.length - n + n - 1 = n - 1 by omega, Nat.div_eq_of_lt (show n - 1 < n by omega)]
      rw [show l.length + n - 1 = (l.length - 1) + n by omega, Nat.add_div_right _ hn,
        Nat.div_eq_of_lt (show l.length - 1 < n by omega)]

theorem mem_batches {α : Type} {n : ℕ} {l : List α} {b : List α} (hn : 0 < n) (hb : b ∈ batches n l) {x : α}
    (hx : x ∈ b) : x ∈ l := by
  rw [← batches_flatten hn l]
  exact List.mem_flatten.mpr ⟨b, hb, hx⟩

theorem batches_dvd {α : Type} {n : ℕ} (hn : 0 < n) (l : List α) (h : n ∣ l.length) :
    ∀ b ∈ batches n l, b.length = n := by
  revert h
  refine batches_induction hn (fun l => n ∣ l.length → ∀ b ∈ batches n l, b.length = n) ?_ ?_ l
  · simp [batches_nil]
  · intro l hl ih hd b hb
    have hp := List.length_pos_iff.mpr hl
    have hle := Nat.le_of_dvd hp hd
    rw [batches_cons hl hn] at hb
    rcases List.mem_cons.mp hb with rfl | hb
    · simp; omega
    · exact ih (by rw [List.length_drop]; exact Nat.dvd_sub hd (dvd_refl n)) b hb

theorem batches_not_dvd {α : Type} {n : ℕ} (hn : 0 < n) (l : List α) (h : ¬ n ∣ l.length) :
    ∃ (i : ℕ) (b : List α), (batches n l)[i]? = some b ∧ 0 < b.length ∧ b.length < n := by
  revert h
  refine batches_induction hn (fun l => ¬ n ∣ l.length →
    ∃ (i : ℕ) (b : List α), (batches n l)[i]? = some b ∧ 0 < b.length ∧ b.length < n) ?_ ?_ l
  · intro h; exact absurd (dvd_zero n) h
  · intro l hl ih hd
    have hp := List.length_pos_iff.mpr hl
    by_cases hle : n ≤ l.length
    · obtain ⟨i, b, hi, hb⟩ := ih (by
        rw [List.length_drop]
        intro hd'
        apply hd
        have := Nat.dvd_add hd' (dvd_refl n)
        rwa [Nat.sub_add_cancel hle] at this)
      exact ⟨i + 1, b, by rw [batches_cons hl hn]; simpa using hi, hb⟩
    · exact ⟨0, l.take n, by rw [batches_cons hl hn]; rfl, by simp; omega, by simp; omega⟩

/-! ### The loops -/

/-- What the loops keep: the sizes of the batches, and a property of all the images. -/
def Inv (sizes : List ℕ) (Q : Img K → Prop) (s : St K) : Prop :=
  s.images.map List.length = sizes ∧ ∀ x ∈ s.images, ∀ im ∈ x, Q im

/-- An update that keeps sizes and a property of images. -/
def Keeps (Q : Img K → Prop) (upd : Update K) : Prop :=
  ∀ i b s x, (upd i b s x).length = x.length ∧ ((∀ im ∈ x, Q im) → ∀ im ∈ upd i b s x, Q im)

theorem KeepsShape.keeps {upd : Update K} (h : KeepsShape upd) (a b c : ℕ) : Keeps (Shaped a b c) upd :=
  fun i j s x => ⟨(h i j s x).1, (h i j s x).2 a b c⟩

variable {Q R : Img K → Prop} {F : Img K → Option (Img K)} {upd : Update K} {manip : Manip K}

theorem finalizeBatch_total (hF : ∀ im, Q im → ∃ f, F im = some f ∧ R f) {x : Batch K} (hx : ∀ im ∈ x, Q im) :
    ∃ f, finalizeBatch F x = some f ∧ f.length = x.length ∧ ∀ im ∈ f, R im :=
  mapM_total F R x fun im him => hF im (hx im him)

theorem Inv.set {sizes : List ℕ} {s : St K} (h : Inv sizes Q s) {b : ℕ} {x y : Batch K}
    (hb : s.images[b]? = some x) (hl : y.length = x.length) (hy : ∀ im ∈ y, Q im) :
    (s.images.set b y).map List.length = sizes ∧ ∀ z ∈ s.images.set b y, ∀ im ∈ z, Q im := by
  obtain ⟨hbl, rfl⟩ := List.getElem?_eq_some_iff.mp hb
  constructor
  · rw [← h.1, List.map_set]
    apply List.ext_getElem (by simp)
    intro i h1 h2
    rw [List.getElem_set]
    split_ifs with e
    · subst e; simp [hl]
    · rfl
  · intro z hz
    rcases List.mem_or_eq_of_mem_set hz with hz | rfl
    · exact h.2 z hz
    · exact hy

theorem stepBatch_spec (hF : ∀ im, Q im → ∃ f, F im = some f ∧ R f) (hu : Keeps Q upd) (all : Bool)
    {sizes : List ℕ} {s : St K} (h : Inv sizes Q s) (i : ℕ) {b : ℕ} (hb : b < sizes.length) :
    ∃ s', stepBatch all true (finalizeBatch F) manip upd i b s = some s' ∧ Inv sizes Q s' ∧
      s'.log = s.log ++ [(i, b)] := by
  have hbl : b < s.images.length := by rw [← h.1] at hb; simpa using hb
  have hx : s.images[b]? = some s.images[b] := List.getElem?_eq_getElem hbl
  have hxm : ∀ im ∈ s.images[b], Q im := h.2 _ (List.getElem_mem hbl)
  unfold stepBatch
  rw [hx]
  dsimp only
  rw [if_neg (by simp)]
  obtain ⟨hul, huq⟩ := hu i b
    { s with ran := some (manip i b s.images[b]), kept := s.kept.set b (some ⟨manip i b s.images[b], manip i b s.images[b]⟩) }
    s.images[b]
  obtain ⟨i1, i2⟩ := h.set hx hul (huq hxm)
  cases all with
  | false => exact ⟨_, rfl, ⟨i1, i2⟩, rfl⟩
  | true =>
    obtain ⟨f, hf, _⟩ := finalizeBatch_total hF (huq hxm)
    rw [if_pos rfl, hf, Option.bind_some, Option.bind_some]
    exact ⟨_, rfl, ⟨i1, i2⟩, rfl⟩

theorem runOrder_spec (hF : ∀ im, Q im → ∃ f, F im = some f ∧ R f) (hu : Keeps Q upd) (all : Bool)
    {sizes : List ℕ} (i : ℕ) : ∀ (l : List ℕ) {s : St K}, Inv sizes Q s → (∀ b ∈ l, b < sizes.length) →
    ∃ s', runOrder all true (finalizeBatch F) manip upd i l s = some s' ∧ Inv sizes Q s' ∧
      s'.log = s.log ++ l.map fun b => (i, b)
  | [], s, h, _ => ⟨s, rfl, h, by simp⟩
  | b :: l, s, h, hl => by
      obtain ⟨s1, e1, h1, l1⟩ := stepBatch_spec (manip := manip) hF hu all h i (hl b (by simp))
      obtain ⟨s2, e2, h2, l2⟩ := runOrder_spec hF hu all i l h1 (fun x hx => hl x (by simp [hx]))
      exact ⟨s2, by rw [runOrder, e1, Option.bind_some, e2], h2, by rw [l2, l1]; simp⟩

theorem runIters_spec (hF : ∀ im, Q im → ∃ f, F im = some f ∧ R f) (hu : Keeps Q upd) (all : Bool)
    {sizes : List ℕ} {order : ℕ → List ℕ} : ∀ (l : List ℕ) {s : St K}, Inv sizes Q s →
    (∀ i ∈ l, order i ≠ [] ∧ ∀ b ∈ order i, b < sizes.length) →
    ∃ s', runIters all true (finalizeBatch F) manip upd order l s = some s' ∧ Inv sizes Q s' ∧
      s'.log = s.log ++ l.flatMap fun i => (order i).map fun b => (i, b)
  | [], s, h, _ => ⟨s, rfl, h, by simp⟩
  | i :: l, s, h, hl => by
      obtain ⟨hne, hlt⟩ := hl i (by simp)
      obtain ⟨s1, e1, h1, l1⟩ := runOrder_spec (manip := manip) hF hu all i (order i) h hlt
      obtain ⟨s2, e2, h2, l2⟩ := runIters_spec hF hu all l h1 (fun x hx => hl x (by simp [hx]))
      refine ⟨s2, ?_, h2, by rw [l2, l1]; simp⟩
      rw [runIters, e1, Option.bind_some, if_neg, e2]
      rw [l1]; simp [hne]

theorem start_spec (hF : ∀ im, Q im → ∃ f, F im = some f ∧ R f) (all : Bool) {bs : List (Batch K)}
    (h : ∀ x ∈ bs, ∀ im ∈ x, Q im) :
    ∃ s, start all (finalizeBatch F) bs = some s ∧ Inv (bs.map List.length) Q s ∧ s.log = [] := by
  cases all with
  | false => exact ⟨_, rfl, ⟨rfl, h⟩, rfl⟩
  | true =>
    obtain ⟨ks, hk, _⟩ := mapM_total
      (fun x : Batch K => (finalizeBatch F x).map fun f => (some (⟨f, f⟩ : Kept K))) (fun _ => True) bs (by
        intro x hx
        obtain ⟨f, hf, _⟩ := finalizeBatch_total hF (h x hx)
        exact ⟨some ⟨f, f⟩, by simp [hf], trivial⟩)
    refine ⟨⟨bs, ks, none, []⟩, ?_, ⟨rfl, h⟩, rfl⟩
    simp only [start, startKept, if_true, hk, Option.map_some]

/-- The whole optimization. -/
theorem optimize_spec (hF : ∀ im, Q im → ∃ f, F im = some f ∧ R f) (hu : Keeps Q upd) (all : Bool)
    {bs : List (Batch K)} (h : ∀ x ∈ bs, ∀ im ∈ x, Q im) (hne : bs ≠ []) {n : ℕ} {order : ℕ → List ℕ}
    (ho : Schedule n bs.length order) :
    ∃ s0 s, start all (finalizeBatch F) bs = some s0 ∧
      runIters all true (finalizeBatch F) manip upd order (List.range n) s0 = some s ∧
      Inv (bs.map List.length) Q s ∧ s.log = (List.range n).flatMap fun i => (order i).map fun b => (i, b) := by
  obtain ⟨s0, e0, h0, l0⟩ := start_spec hF all h
  obtain ⟨s, e, hi, l⟩ := runIters_spec (manip := manip) (order := order) hF hu all (List.range n) h0 (by
    intro i hi
    have hp := ho i (List.mem_range.mp hi)
    constructor
    · intro hnil
      rw [hnil] at hp
      have := hp.length_eq
      simp at this
      exact hne (List.length_eq_zero_iff.mp this.symm)
    · intro b hb
      simpa using hp.mem_iff.mp hb)
  exact ⟨s0, s, e0, e, hi, by rw [l, l0, List.nil_append]⟩

theorem count_range {b nb : ℕ} (hb : b < nb) : (List.range nb).count b = 1 := by
  rw [List.nodup_range.count, if_pos (List.mem_range.mpr hb)]

/-- The record of the loops under a schedule. -/
theorem log_once {n nb : ℕ} {order : ℕ → List ℕ} (ho : Schedule n nb order) :
    OnceEach n nb ((List.range n).flatMap fun i => (order i).map fun b => (i, b)) := by
  intro i b
  have key : ∀ (m : ℕ), m ≤ n → ((List.range m).flatMap fun i => (order i).map fun b => (i, b)).count (i, b) =
      if i < m ∧ b < nb then 1 else 0 := by
    intro m
    induction m with
    | zero => intro _; simp
    | succ m ih =>
      intro hm
      rw [List.range_succ, List.flatMap_append, List.count_append, ih (by omega)]
      have hp := ho m (by omega)
      have hc : ((order m).map fun b => (m, b)).count (i, b) = if i = m ∧ b < nb then 1 else 0 := by
        by_cases e : i = m
        · subst e
          rw [List.count_map_of_injective _ _ (fun x y h => by simpa using h), hp.count_eq]
          by_cases hb : b < nb
          · rw [if_pos ⟨rfl, hb⟩]
            exact count_range hb
          · rw [if_neg (by tauto)]
            exact List.count_eq_zero_of_not_mem (by simpa using hb)
        · rw [if_neg (by tauto)]
          exact List.count_eq_zero_of_not_mem (by
            intro hmem
            obtain ⟨x, _, hx⟩ := List.mem_map.mp hmem
            exact e (by simpa using (congrArg Prod.fst hx).symm))
      rw [List.flatMap_singleton, hc]
      by_cases h1 : i < m
      · have : i ≠ m := by omega
        by_cases hb : b < nb
        · rw [if_pos ⟨h1, hb⟩, if_neg (by tauto), if_pos ⟨by omega, hb⟩]
        · rw [if_neg (by tauto), if_neg (by tauto), if_neg (by tauto)]
      · by_cases e : i = m
        · by_cases hb : b < nb
          · rw [if_neg (by tauto), if_pos ⟨e, hb⟩, if_pos ⟨by omega, hb⟩]
          · rw [if_neg (by tauto), if_neg (by tauto), if_neg (by tauto)]
        · rw [if_neg (by tauto), if_neg (by tauto), if_neg (by omega)]
  exact key n le_rfl

end MCT.DataGen
