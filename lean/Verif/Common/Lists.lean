import Mathlib.Data.List.Forall2

/-!
# List facts used in several topics
-/

namespace MCT.Common

theorem mapM_some_iff {α β : Type*} (f : α → Option β) (l : List α) (r : List β) :
    l.mapM f = some r ↔ List.Forall₂ (fun a b => f a = some b) l r := by
  induction l generalizing r with
  | nil => cases r <;> simp
  | cons a l ih =>
    rw [List.mapM_cons]
    rcases ha : f a with _ | b
    · constructor
      · intro h; simp at h
      · intro h; cases h with | cons h _ => simp [ha] at h
    · rcases hl : l.mapM f with _ | bs
      · constructor
        · intro h; simp at h
        · intro h
          cases h with
          | cons h hr => rw [← ih] at hr; simp [hl] at hr
      · constructor
        · intro h
          have : r = b :: bs := by simpa using h.symm
          subst this
          exact .cons ha ((ih bs).mp hl)
        · intro h
          cases h with
          | cons h hr =>
            rw [← ih] at hr
            rw [hl] at hr; rw [ha] at h
            simp_all

end MCT.Common
