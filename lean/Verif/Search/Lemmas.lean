import Verif.Search.Model
import Verif.Search.Spec
import Verif.Quant.Props
import Mathlib.Tactic.Push

set_option linter.unusedSectionVars false

/-!
# Helper lemmas for the parameter searches
-/

namespace MCT.Search

open MCT.Quant MCT.QuantSpec MCT.SearchSpec

theorem argminV_none {α : Type*} [LinearOrder α] {l : List α} : argminV l = none ↔ l = [] := by
  cases l with
  | nil => simp [argminV]
  | cons x xs =>
    simp only [argminV, reduceCtorEq, iff_false]
    split
    · simp
    · split <;> simp

theorem argminV_spec {α : Type*} [LinearOrder α] (l : List α) (i : ℕ) (v : α)
    (h : argminV l = some (i, v)) :
    ∃ hi : i < l.length, l[i] = v ∧ (∀ j (hj : j < l.length), v ≤ l[j]) ∧
      ∀ j (hj : j < i), v < l[j]'(hj.trans hi) := by
  induction l generalizing i v with
  | nil => simp [argminV] at h
  | cons x xs ih =>
    simp only [argminV] at h
    split at h
    · rename_i hn
      rw [argminV_none] at hn
      subst hn
      simp only [Option.some.injEq, Prod.mk.injEq] at h
      obtain ⟨rfl, rfl⟩ := h
      refine ⟨by simp, by simp, ?_, ?_⟩
      · intro j hj; simp at hj; subst hj; simp
      · intro j hj; omega
    · rename_i j y hs
      obtain ⟨hj, e, h1, h2⟩ := ih _ _ hs
      split at h
      · rename_i hle
        simp only [Option.some.injEq, Prod.mk.injEq] at h
        obtain ⟨rfl, rfl⟩ := h
        refine ⟨by simp, by simp, ?_, ?_⟩
        · intro j' hj'
          cases j' with
          | zero => simp
          | succ j' => simp only [List.getElem_cons_succ]; exact hle.trans (h1 _ _)
        · intro j hj; omega
      · rename_i hle
        simp only [Option.some.injEq, Prod.mk.injEq] at h
        obtain ⟨rfl, rfl⟩ := h
        refine ⟨by simpa using hj, by simpa using e, ?_, ?_⟩
        · intro j' hj'
          cases j' with
          | zero => simpa using (not_le.mp hle).le
          | succ j' => simpa using h1 _ _
        · intro j' hj'
          cases j' with
          | zero => simpa using not_le.mp hle
          | succ j' => simpa using h2 j' (by omega)

theorem argminV_map_range {α : Type*} [LinearOrder α] (E : ℕ → α) (n : ℕ) (hn : 1 ≤ n) :
    ∃ i, argminV ((List.range n).map E) = some (i, E i) ∧ FirstArgmin E n i := by
  rcases h : argminV ((List.range n).map E) with _ | ⟨i, v⟩
  · rw [argminV_none] at h
    simp at h; omega
  · obtain ⟨hi, e, h1, h2⟩ := argminV_spec _ _ _ h
    simp only [List.length_map, List.length_range] at hi
    simp only [List.getElem_map, List.getElem_range] at e h1 h2
    subst e
    exact ⟨i, rfl, hi, fun j hj => h1 j (by simpa using hj), h2⟩

variable {K : Type*} [Field K] [LinearOrder K] [IsStrictOrderedRing K] [FloorRing K]

theorem foldl_min_le (xs : List K) (x : K) :
    xs.foldl min x ≤ x ∧ ∀ y ∈ xs, xs.foldl min x ≤ y := by
  induction xs generalizing x with
  | nil => simp
  | cons y ys ih =>
    obtain ⟨h1, h2⟩ := ih (min x y)
    simp only [List.foldl_cons, List.mem_cons, forall_eq_or_imp]
    exact ⟨h1.trans (min_le_left _ _), h1.trans (min_le_right _ _), h2⟩

theorem foldl_min_mem (xs : List K) (x : K) : xs.foldl min x ∈ x :: xs := by
  induction xs generalizing x with
  | nil => simp
  | cons y ys ih =>
    have := ih (min x y)
    simp only [List.foldl_cons, List.mem_cons] at this ⊢
    rcases this with h | h
    · rw [h]; rcases min_choice x y with h | h <;> simp [h]
    · exact Or.inr (Or.inr h)

theorem le_foldl_max (xs : List K) (x : K) :
    x ≤ xs.foldl max x ∧ ∀ y ∈ xs, y ≤ xs.foldl max x := by
  induction xs generalizing x with
  | nil => simp
  | cons y ys ih =>
    obtain ⟨h1, h2⟩ := ih (max x y)
    simp only [List.foldl_cons, List.mem_cons, forall_eq_or_imp]
    exact ⟨(le_max_left _ _).trans h1, (le_max_right _ _).trans h1, h2⟩

theorem foldl_max_mem (xs : List K) (x : K) : xs.foldl max x ∈ x :: xs := by
  induction xs generalizing x with
  | nil => simp
  | cons y ys ih =>
    have := ih (max x y)
    simp only [List.foldl_cons, List.mem_cons] at this ⊢
    rcases this with h | h
    · rw [h]; rcases max_choice x y with h | h <;> simp [h]
    · exact Or.inr (Or.inr h)

theorem npMin_spec {xs : List K} (h : xs ≠ []) :
    ∃ m, npMin xs = some m ∧ m ∈ xs ∧ ∀ x ∈ xs, m ≤ x := by
  cases xs with
  | nil => exact absurd rfl h
  | cons x xs =>
    refine ⟨_, rfl, foldl_min_mem xs x, ?_⟩
    obtain ⟨h1, h2⟩ := foldl_min_le xs x
    intro y hy
    rcases List.mem_cons.mp hy with rfl | hy
    · exact h1
    · exact h2 y hy

theorem npMax_spec {xs : List K} (h : xs ≠ []) :
    ∃ m, npMax xs = some m ∧ m ∈ xs ∧ ∀ x ∈ xs, x ≤ m := by
  cases xs with
  | nil => exact absurd rfl h
  | cons x xs =>
    refine ⟨_, rfl, foldl_max_mem xs x, ?_⟩
    obtain ⟨h1, h2⟩ := le_foldl_max xs x
    intro y hy
    rcases List.mem_cons.mp hy with rfl | hy
    · exact h1
    · exact h2 y hy

/-- With at least two bits, `t` covers the data exactly when it is at least the tensor maximum. -/
theorem tensorMaxOf_covers {xs : List K} (h : xs ≠ []) {n : ℕ} (hn : 1 ≤ n) :
    ∃ m, tensorMaxOf xs n false = some m ∧ (∀ x ∈ xs, -x ≤ m) ∧
      (2 ≤ n → ∀ t, 0 < t → (Covers t n xs ↔ m ≤ t)) := by
  obtain ⟨lo, hlo, hlom, hlo'⟩ := npMin_spec h
  obtain ⟨hi, hhi, hhim, hhi'⟩ := npMax_spec h
  have hn' : ¬ n < 1 := by omega
  refine ⟨_, by simp only [tensorMaxOf, hlo, hhi, tensorMax, if_neg hn']; rfl, ?_, ?_⟩
  · intro x hx
    exact le_trans (by have := hlo' x hx; linarith) (le_max_left _ _)
  · intro h2 t ht
    have hn1 : n ≠ 1 := by omega
    simp only [Bool.false_eq_true, if_false, if_neg hn1]
    have hp : (1 : K) < 2 ^ (n - 1) := one_lt_pow₀ (by norm_num) (by omega)
    have hp0 : (0 : K) < 2 ^ (n - 1) - 1 := by linarith
    have key : ∀ x : K, x * (2 ^ (n - 1) / (2 ^ (n - 1) - 1)) ≤ t ↔ x ≤ t - t / 2 ^ (n - 1) := by
      intro x
      have e : t - t / 2 ^ (n - 1) = t * (2 ^ (n - 1) - 1) / 2 ^ (n - 1) := by
        field_simp
      rw [e, ← mul_div_assoc, div_le_iff₀ hp0, le_div_iff₀ (by linarith)]
    rw [max_le_iff, key]
    constructor
    · intro hc
      exact ⟨by have := (hc lo hlom).1; linarith, (hc hi hhim).2⟩
    · rintro ⟨h3, h4⟩ x hx
      exact ⟨by have := hlo' x hx; linarith, (hhi' x hx).trans h4⟩

/-- Twice / a power-of-two fraction of a power of two is a power of two. -/
theorem isPow2_scale {T : K} (h : IsPow2 T) (i : ℕ) : IsPow2 (2 * T / 2 ^ i) := by
  obtain ⟨k, rfl⟩ := h
  refine ⟨k + 1 - i, ?_⟩
  rw [zpow_sub₀ (by norm_num), zpow_add₀ (by norm_num)]
  simp; ring

theorem isPow2_pos {T : K} (h : IsPow2 T) : 0 < T := by
  obtain ⟨k, rfl⟩ := h; positivity

theorem isPow2_max {a b : K} (ha : IsPow2 a) (hb : IsPow2 b) : IsPow2 (max a b) := by
  rcases max_choice a b with h | h <;> rw [h] <;> assumption

/-- A covered value is quantized with an error of at most half a step. -/
theorem covers_error {t : K} (ht : 0 < t) {n : ℕ} (hn : 1 ≤ n) {xs : List K}
    (hc : Covers t n xs) {x : K} (hx : x ∈ xs) :
    ∃ q, quantizeTensor x t n true = some q ∧ |q - x| ≤ (t / 2 ^ (n - 1)) / 2 := by
  obtain ⟨q, hq, _, h1, _⟩ := C05_signed_grid t ht n hn x
  exact ⟨q, hq, h1 (hc x hx).1 (hc x hx).2⟩

/-! ### Iterative searches -/

theorem blend_fin (imp : Bool) (a b : K) :
    Loss.blend imp (.fin a) (.fin b) = .fin (if imp then a else b) := by
  cases imp <;> simp [Loss.blend, Loss.mulB, Loss.add, b2k]

/-- What an inner search on finite losses returns. -/
def InnerOK {P : Type*} (inner : (P → Loss K) → P → List P → Best P K) : Prop :=
  ∀ (f : P → K) (c0 : P) (cs : List P),
    (inner (fun p => .fin (f p)) c0 cs).param ∈ c0 :: cs ∧
    (inner (fun p => .fin (f p)) c0 cs).loss =
      .fin (f (inner (fun p => .fin (f p)) c0 cs).param) ∧
    ∀ p ∈ c0 :: cs, f (inner (fun p => .fin (f p)) c0 cs).param ≤ f p

theorem update_fin {P : Type*} (f : P → K) (b : Best P K) (hb : b.loss = .fin (f b.param)) (p : P) :
    (b.update p (.fin (f p))).loss = .fin (f (b.update p (.fin (f p))).param) ∧
    f (b.update p (.fin (f p))).param ≤ f b.param ∧
    f (b.update p (.fin (f p))).param ≤ f p ∧
    ((b.update p (.fin (f p))).param = b.param ∨ (b.update p (.fin (f p))).param = p) := by
  unfold Best.update
  rw [hb]
  simp only [Loss.lt, blend_fin]
  by_cases h : f p < f b.param
  · simp [h, h.le]
  · simp [h]
    exact not_lt.mp h

theorem foldBest_ok {P : Type*} : InnerOK (K := K) (P := P) foldBest := by
  intro f c0 cs
  unfold foldBest
  suffices H : ∀ (b : Best P K), b.loss = .fin (f b.param) →
      (cs.foldl (fun b p => b.update p (.fin (f p))) b).param ∈ b.param :: cs ∧
      (cs.foldl (fun b p => b.update p (.fin (f p))) b).loss =
        .fin (f (cs.foldl (fun b p => b.update p (.fin (f p))) b).param) ∧
      ∀ p ∈ b.param :: cs, f (cs.foldl (fun b p => b.update p (.fin (f p))) b).param ≤ f p by
    exact H ⟨c0, .fin (f c0)⟩ rfl
  induction cs with
  | nil => intro b hb; simp [hb]
  | cons c cs ih =>
    intro b hb
    obtain ⟨u1, u2, u3, u4⟩ := update_fin f b hb c
    obtain ⟨h1, h2, h3⟩ := ih _ u1
    simp only [List.foldl_cons]
    refine ⟨?_, h2, ?_⟩
    · rcases List.mem_cons.mp h1 with h | h
      · rcases u4 with u | u
        · rw [h, u]; simp
        · rw [h, u]; simp
      · simp [h]
    · intro p hp
      have hh := h3 _ List.mem_cons_self
      simp only [List.mem_cons] at hp
      rcases hp with rfl | rfl | hp
      · exact hh.trans u2
      · exact hh.trans u3
      · exact h3 p (List.mem_cons_of_mem _ hp)

theorem argBest_ok {P : Type*} : InnerOK (K := K) (P := P) argBest := by
  intro f c0 cs
  induction cs generalizing c0 with
  | nil => simp [argBest]
  | cons c cs ih =>
    obtain ⟨h1, h2, h3⟩ := ih c
    simp only [argBest]
    rw [h2]
    simp only [Loss.argLe]
    by_cases h : f c0 ≤ f (argBest (fun p => Loss.fin (f p)) c cs).param
    · simp only [h, decide_true, if_true]
      refine ⟨by simp, trivial, ?_⟩
      intro p hp
      rcases List.mem_cons.mp hp with rfl | hp
      · exact le_rfl
      · exact h.trans (h3 p hp)
    · simp only [h, decide_false, Bool.false_eq_true, if_false]
      refine ⟨List.mem_cons_of_mem _ h1, h2, ?_⟩
      intro p hp
      rcases List.mem_cons.mp hp with rfl | hp
      · exact (not_le.mp h).le
      · exact h3 p hp

/-- Invariant of the main loop. -/
def IterInv {m : ℕ} {P S : Type*} (f : Fin m → P → K) (st : IterState m P S K) : Prop :=
  ∀ c, (st.best c).loss = .fin (f c (st.best c).param) ∧ (st.best c).param ∈ st.seen c ∧
    ∀ p ∈ st.seen c, f c (st.best c).param ≤ f c p

theorem iterRounds_inv {m : ℕ} {P S : Type*} (cands : S → P → P × List P)
    (inner : (P → Loss K) → P → List P → Best P K) (hin : InnerOK inner) (f : Fin m → P → K)
    (next : ℕ → S → S) (tol : K) (k n : ℕ) (st : IterState m P S K) (h : IterInv f st) :
    IterInv f (iterRounds cands inner (fun c p => .fin (f c p)) next tol k n st) := by
  induction k generalizing n st with
  | zero => exact h
  | succ k ih =>
    simp only [iterRounds]
    have hstep : IterInv f
        { curr := fun c => (inner (fun p => Loss.fin (f c p)) (cands st.sched (st.curr c)).1
            (cands st.sched (st.curr c)).2).param
          best := fun c => (st.best c).update (inner (fun p => Loss.fin (f c p))
            (cands st.sched (st.curr c)).1 (cands st.sched (st.curr c)).2).param
            (inner (fun p => Loss.fin (f c p)) (cands st.sched (st.curr c)).1
            (cands st.sched (st.curr c)).2).loss
          sched := next n st.sched
          seen := fun c => st.seen c ++
            (cands st.sched (st.curr c)).1 :: (cands st.sched (st.curr c)).2 :
          IterState m P S K } := by
      intro c
      obtain ⟨b1, b2, b3⟩ := h c
      obtain ⟨i1, i2, i3⟩ := hin (f c) (cands st.sched (st.curr c)).1 (cands st.sched (st.curr c)).2
      simp only [i2]
      obtain ⟨u1, u2, u3, u4⟩ := update_fin (f c) (st.best c) b1
        (inner (fun p => Loss.fin (f c p)) (cands st.sched (st.curr c)).1
            (cands st.sched (st.curr c)).2).param
      refine ⟨u1, ?_, ?_⟩
      · rcases u4 with u | u
        · rw [u]; exact List.mem_append_left _ b2
        · rw [u]; exact List.mem_append_right _ i1
      · intro p hp
        rcases List.mem_append.mp hp with hp | hp
        · exact u2.trans (b3 p hp)
        · exact u3.trans (i3 p hp)
    split
    · exact hstep
    · exact ih _ _ hstep

theorem iterRounds_seen {m : ℕ} {P S : Type*} (cands : S → P → P × List P) (w : ℕ)
    (hw : ∀ s p, (cands s p).2.length = w)
    (inner : (P → Loss K) → P → List P → Best P K) (loss : Fin m → P → Loss K)
    (next : ℕ → S → S) (tol : K) (k n : ℕ) (st : IterState m P S K) (c : Fin m) :
    (∃ l, (iterRounds cands inner loss next tol k n st).seen c = st.seen c ++ l) ∧
    ((iterRounds cands inner loss next tol k n st).seen c).length ≤
      (st.seen c).length + k * (w + 1) := by
  induction k generalizing n st with
  | zero => exact ⟨⟨[], by simp [iterRounds]⟩, by simp [iterRounds]⟩
  | succ k ih =>
    simp only [iterRounds]
    split
    · refine ⟨⟨_, rfl⟩, ?_⟩
      simp only [List.length_append, List.length_cons, hw]
      have : (k + 1) * (w + 1) = k * (w + 1) + (w + 1) := by ring
      omega
    · obtain ⟨⟨l, hl⟩, h2⟩ := ih (n + 1) _
      refine ⟨⟨_, by rw [hl, List.append_assoc]⟩, h2.trans ?_⟩
      simp only [List.length_append, List.length_cons, hw]
      have : (k + 1) * (w + 1) = k * (w + 1) + (w + 1) := by ring
      omega

theorem iterInit_inv {m : ℕ} {P S : Type*} (f : Fin m → P → K) (x0 : Fin m → P) (s0 : S) :
    IterInv f (iterInit (fun c p => Loss.fin (f c p)) x0 s0) := by
  intro c; simp [iterInit]

theorem npMin_map_mono (f : K → K) (hf : Monotone f) {xs : List K} {m : K} (h : npMin xs = some m) :
    npMin (xs.map f) = some (f m) := by
  have hne : xs ≠ [] := by rintro rfl; simp [npMin] at h
  obtain ⟨m', h1, h2, h3⟩ := npMin_spec hne
  obtain ⟨k, k1, k2, k3⟩ := npMin_spec (xs := xs.map f) (by simpa using hne)
  rw [h] at h1; simp only [Option.some.injEq] at h1; subst h1
  rw [k1]
  obtain ⟨x, hx, rfl⟩ := List.mem_map.1 k2
  exact congrArg some (le_antisymm (k3 _ (List.mem_map_of_mem h2)) (hf (h3 x hx)))

theorem npMax_map_mono (f : K → K) (hf : Monotone f) {xs : List K} {m : K} (h : npMax xs = some m) :
    npMax (xs.map f) = some (f m) := by
  have hne : xs ≠ [] := by rintro rfl; simp [npMax] at h
  obtain ⟨m', h1, h2, h3⟩ := npMax_spec hne
  obtain ⟨k, k1, k2, k3⟩ := npMax_spec (xs := xs.map f) (by simpa using hne)
  rw [h] at h1; simp only [Option.some.injEq] at h1; subst h1
  rw [k1]
  obtain ⟨x, hx, rfl⟩ := List.mem_map.1 k2
  exact congrArg some (le_antisymm (hf (h3 x hx)) (k3 _ (List.mem_map_of_mem h2)))

end MCT.Search
