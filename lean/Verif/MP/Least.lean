import Mathlib.Order.Lattice
import Mathlib.Order.Defs.LinearOrder

/-! # First smallest element of a list -/

namespace MCT.MP

variable {L : Type*} [LinearOrder L]

/-- First element of smallest cost. -/
def leastBy {α : Type*} (f : α → L) : List α → Option α
  | [] => none
  | x :: xs => some (xs.foldl (fun b y => if f y < f b then y else b) x)

theorem leastBy_fold {α : Type*} (f : α → L) (xs : List α) (x : α) :
    (xs.foldl (fun b y => if f y < f b then y else b) x) ∈ x :: xs ∧
    ∀ y ∈ x :: xs, f (xs.foldl (fun b y => if f y < f b then y else b) x) ≤ f y := by
  induction xs generalizing x with
  | nil => simp
  | cons a xs ih =>
    rw [List.foldl_cons]
    obtain ⟨h1, h2⟩ := ih (if f a < f x then a else x)
    have hx := h2 _ (List.mem_cons_self)
    refine ⟨?_, ?_⟩
    · rcases List.mem_cons.mp h1 with e | e
      · rw [e]; split_ifs <;> simp
      · exact List.mem_cons_of_mem _ (List.mem_cons_of_mem _ e)
    · intro y hy
      rcases List.mem_cons.mp hy with rfl | hy
      · refine hx.trans ?_; split_ifs with h
        · exact h.le
        · exact le_refl _
      · rcases List.mem_cons.mp hy with rfl | hy
        · refine hx.trans ?_; split_ifs with h
          · exact le_refl _
          · exact not_lt.mp h
        · exact h2 y (List.mem_cons_of_mem _ hy)

theorem leastBy_spec {α : Type*} {f : α → L} {l : List α} {x : α} (h : leastBy f l = some x) :
    x ∈ l ∧ ∀ y ∈ l, f x ≤ f y := by
  cases l with
  | nil => simp [leastBy] at h
  | cons a l =>
    simp only [leastBy, Option.some.injEq] at h
    rw [← h]; exact leastBy_fold f l a

theorem leastBy_none {α : Type*} {f : α → L} {l : List α} (h : leastBy f l = none) : l = [] := by
  cases l with
  | nil => rfl
  | cons a l => simp [leastBy] at h


end MCT.MP
