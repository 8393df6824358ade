/-
Lemmas about dictionaries, the pattern search and the records of fused operations.
-/
import Verif.Fusing.Spec

namespace MCT.Fusing
open MCT.Graph MCT.GraphSpec MCT.FusingSpec

set_option linter.unusedSectionVars false
set_option linter.unusedVariables false
set_option linter.unusedSimpArgs false

namespace Dict
variable {α : Type}

theorem get_nil (k : Name) : Dict.get ([] : Dict α) k = none := rfl

theorem get_cons (k k' : Name) (v : α) (d : Dict α) :
    Dict.get ((k', v) :: d) k = if k = k' then some v else Dict.get d k := by
  simp only [Dict.get, List.lookup_cons]
  by_cases h : k = k'
  · simp [h]
  · have : (k == k') = false := by simpa using h
    simp [h, this]

theorem get_append (d e : Dict α) (k : Name) :
    Dict.get (d ++ e) k = (Dict.get d k).or (Dict.get e k) := by
  induction d with
  | nil => simp [get_nil]
  | cons p d ih =>
    obtain ⟨k', v⟩ := p
    rw [List.cons_append, get_cons, get_cons, ih]
    split <;> simp

theorem get_none {d : Dict α} {k : Name} : Dict.get d k = none ↔ k ∉ d.map Prod.fst := by
  induction d with
  | nil => simp [get_nil]
  | cons p d ih =>
    obtain ⟨k', v⟩ := p
    rw [get_cons]
    by_cases h : k = k'
    · simp [h]
    · simp [h, ih]

theorem get_mem {d : Dict α} {k : Name} {v : α} (h : Dict.get d k = some v) : (k, v) ∈ d := by
  induction d with
  | nil => simp [get_nil] at h
  | cons p d ih =>
    obtain ⟨k', v'⟩ := p
    rw [get_cons] at h
    split at h
    · rename_i e; subst e; simp at h; subst h; exact List.mem_cons_self ..
    · exact List.mem_cons_of_mem _ (ih h)

theorem mem_get {d : Dict α} {k : Name} {v : α} (hk : (d.map Prod.fst).Nodup) (h : (k, v) ∈ d) :
    Dict.get d k = some v := by
  induction d with
  | nil => simp at h
  | cons p d ih =>
    obtain ⟨k', v'⟩ := p
    rw [get_cons]
    simp only [List.map_cons, List.nodup_cons] at hk
    rcases List.mem_cons.1 h with e | e
    · obtain ⟨rfl, rfl⟩ : k = k' ∧ v = v' := by simpa using e
      simp
    · have : k ≠ k' := by
        rintro rfl
        exact hk.1 (List.mem_map.2 ⟨_, e, rfl⟩)
      rw [if_neg this, ih hk.2 e]

theorem get_set (d : Dict α) (k k' : Name) (v : α) :
    Dict.get (Dict.set d k v) k' = if k' = k then some v else Dict.get d k' := by
  rw [Dict.set]
  split
  · rename_i h
    rw [Dict.has, Option.isSome_iff_ne_none] at h
    induction d with
    | nil => simp [get_nil] at h
    | cons p d ih =>
      obtain ⟨k0, v0⟩ := p
      rw [List.map_cons]
      simp only
      rw [get_cons] at h
      by_cases h0 : k = k0
      · subst h0
        rw [if_pos rfl, get_cons, get_cons]
        by_cases h1 : k' = k
        · simp [h1]
        · simp only [h1, if_false]
          clear ih h
          induction d with
          | nil => rfl
          | cons q d ih =>
            obtain ⟨k1, v1⟩ := q
            rw [List.map_cons, get_cons]
            simp only
            split
            · rename_i e; subst e
              rw [get_cons, if_neg h1, ih]
            · rw [get_cons, ih]
      · rw [if_neg (fun e => h0 e.symm), get_cons, get_cons]
        rw [if_neg h0] at h
        rw [ih h]
        by_cases h1 : k' = k0
        · have : k' ≠ k := by rintro rfl; exact h0 h1
          simp [h1, this]
          intro h2; exact absurd (h1 ▸ h2) this
        · simp [h1]
  · rename_i h
    rw [get_append, get_cons, get_nil]
    simp only [Dict.has, Bool.not_eq_true, Option.isSome_eq_false_iff, Option.isNone_iff_eq_none] at h
    by_cases h1 : k' = k
    · subst h1; simp [h]
    · simp [h1]

theorem get_pop (d : Dict α) (k k' : Name) :
    Dict.get (Dict.pop d k) k' = if k' = k then none else Dict.get d k' := by
  rw [Dict.pop]
  induction d with
  | nil => simp [get_nil]
  | cons p d ih =>
    obtain ⟨k0, v0⟩ := p
    rw [List.filter_cons]
    by_cases h : k0 = k
    · subst h
      simp only [ne_eq, not_true, decide_false, Bool.false_eq_true, if_false]
      rw [ih, get_cons]
      split <;> rfl
    · simp only [ne_eq, h, not_false_eq_true, decide_true, if_true]
      rw [get_cons, get_cons, ih]
      by_cases h1 : k' = k0
      · have : k' ≠ k := by rintro rfl; exact h h1.symm
        simp [h1]
        intro e; exact absurd e h
      · simp [h1]

end Dict

variable {N P C : Type} [DecidableEq N] [DecidableEq C]

theorem get_mapNodes (S : Setup N P) (m : Dict Name) (id : Name) (nodes : List N) (nm : Name) :
    (mapNodes S m id nodes).get nm = if nm ∈ nodes.map S.name then some id else m.get nm := by
  induction nodes generalizing m with
  | nil => simp [mapNodes]
  | cons n nodes ih =>
    rw [mapNodes, List.foldl_cons]
    rw [show List.foldl _ (Dict.set m (S.name n) id) nodes = mapNodes S (m.set (S.name n) id) id nodes
      from rfl, ih, Dict.get_set]
    by_cases h : nm ∈ nodes.map S.name
    · simp only [h, if_true, List.map_cons, List.mem_cons, or_true]
    · by_cases h1 : nm = S.name n
      · simp [h, h1]
      · simp only [h, h1, if_false, List.map_cons, List.mem_cons, or_self]

theorem get_popAll (S : Setup N P) (m : Dict Name) (nodes : List N) (nm : Name) :
    Dict.get (nodes.foldl (fun m n => Dict.pop m (S.name n)) m) nm =
      if nm ∈ nodes.map S.name then none else m.get nm := by
  induction nodes generalizing m with
  | nil => simp
  | cons n nodes ih =>
    rw [List.foldl_cons, ih, Dict.get_pop]
    by_cases h : nm ∈ nodes.map S.name
    · simp [h]
    · by_cases h1 : nm = S.name n
      · simp [h, h1]
      · simp only [h, h1, if_false, List.map_cons, List.mem_cons, or_self]

/-- The Boolean test of a pattern is the relation of the specification. -/
theorem zip_fits (S : Setup N P) (p : List P) (w : List N) :
    (decide (w.length = p.length) && (List.zipWith S.fits p w).all (fun b => b)) = true ↔ Fits S p w := by
  rw [Bool.and_eq_true, decide_eq_true_eq, Fits]
  induction p generalizing w with
  | nil => cases w <;> simp
  | cons l p ih =>
    cases w with
    | nil => simp
    | cons n w =>
      have := ih w
      simp only [List.length_cons, List.zipWith_cons_cons, List.all_cons, Bool.and_eq_true,
        List.forall₂_cons, ← this]
      constructor
      · rintro ⟨h1, h2, h3⟩; exact ⟨h2, by omega, h3⟩
      · rintro ⟨h1, h2, h3⟩; exact ⟨by omega, h1, h3⟩

theorem isValid_iff (S : Setup N P) (ps : List (List P)) (w : List N) (manual : List (List Name)) :
    isValidFusion S ps w manual = true ↔
      w.map S.name ∈ manual ∨ 2 ≤ w.length ∧ ∃ p ∈ ps, Fits S p w := by
  rw [isValidFusion]
  have hm : (manual.any (fun m => decide (m = w.map S.name))) = true ↔ w.map S.name ∈ manual := by
    simp [List.any_eq_true]
  split
  · rename_i h; simp [hm.1 h]
  · rename_i h
    rw [hm] at h
    split
    · rename_i h1
      simp only [Bool.false_eq_true, false_iff, not_or]
      exact ⟨h, fun e => by omega⟩
    · rename_i h1
      rw [List.any_eq_true]
      simp only [zip_fits]
      constructor
      · rintro ⟨p, hp, hf⟩; exact Or.inr ⟨by omega, p, hp, hf⟩
      · rintro (h2 | ⟨-, p, hp, hf⟩)
        · exact absurd h2 h
        · exact ⟨p, hp, hf⟩

/-! ### The search -/

theorem mem_validPatterns {S : Setup N P} {ps : List (List P)} {n : N} {i : Nat} {p : List P} :
    p ∈ validPatterns S ps n i ↔ p ∈ ps ∧ ∃ l, p[i]? = some l ∧ S.fits l n = true := by
  rw [validPatterns, List.mem_filter]
  refine and_congr_right fun _ => ?_
  cases p[i]? <;> simp

theorem collect_only (S : Setup N P) (g : Gr N) : ∀ fuel i (ps : List (List P)) n,
    OnlyWay g (collect S g fuel i ps n) ∧
      (collect S g fuel i ps n = [] ∨ (collect S g fuel i ps n).head? = some n)
  | 0, _, _, _ => ⟨trivial, Or.inl rfl⟩
  | fuel + 1, i, ps, n => by
      rw [collect]
      split
      · exact ⟨trivial, Or.inl rfl⟩
      · split
        · rename_i m hm
          have ih := collect_only S g fuel (i + 1) (validPatterns S ps n i) m
          refine ⟨?_, Or.inr rfl⟩
          rcases ih.2 with h | h
          · rw [h]; trivial
          · cases hc : collect S g fuel (i + 1) (validPatterns S ps n i) m with
            | nil => trivial
            | cons b w =>
              rw [hc] at h ih
              obtain rfl : b = m := by simpa using h
              exact ⟨(next_one (by rw [hm]; rfl)).1 (by rw [hm]; simp), ih.1⟩
        · exact ⟨trivial, Or.inr rfl⟩

theorem onlyWay_nodes {g : Gr N} (hd : ∀ e ∈ g.edges, e.dst ∈ g.nodes) : ∀ (w : List N),
    OnlyWay g w → (∀ n, w.head? = some n → n ∈ g.nodes) → ∀ n ∈ w, n ∈ g.nodes
  | [], _, _, n, h => by simp at h
  | [a], _, h1, n, h => h1 n (by rw [List.mem_singleton.1 h]; rfl)
  | a :: b :: w, ho, h1, n, h => by
      rcases List.mem_cons.1 h with rfl | h
      · exact h1 _ rfl
      · refine onlyWay_nodes hd (b :: w) ho.2 ?_ n h
        intro m hm
        obtain rfl : b = m := by simpa using hm
        obtain ⟨e, he, rfl⟩ := ho.1
        have : e ∈ edgesFrom g a := by rw [he]; simp
        exact hd e (List.mem_filter.1 this).1

/-- The search from a node returns a chain from it when some pattern agrees with the chain and no
pattern agrees with one layer more. -/
theorem collect_eq (S : Setup N P) (g : Gr N) : ∀ (c : List N) (n : N) (fuel i : Nat)
    (ps : List (List P)), OnlyWay g (n :: c) → c.length < fuel →
    (∃ q ∈ ps, i + (c.length + 1) ≤ q.length ∧ Fits S ((q.drop i).take (c.length + 1)) (n :: c)) →
    (∀ q ∈ ps, ∀ z m, (n :: c).getLast? = some z → nextNodes g z = [m] → i + (c.length + 2) ≤ q.length →
      ¬ Fits S ((q.drop i).take (c.length + 2)) (n :: c ++ [m])) →
    collect S g fuel i ps n = n :: c
  | [], n, fuel + 1, i, ps, _, _, ⟨q, hq, hl, hf⟩, hstop => by
      have hq1 : q ∈ validPatterns S ps n i := by
        refine mem_validPatterns.2 ⟨hq, q[i]'(by simp at hl; omega), List.getElem?_eq_getElem _, ?_⟩
        rw [List.length_nil, List.take_one] at hf
        rw [List.head?_drop, List.getElem?_eq_getElem (by simp at hl; omega)] at hf
        simp only [Fits, Option.toList_some] at hf
        cases hf with
        | cons h _ => exact h
      rw [collect]
      rw [if_neg (by have := List.length_pos_of_mem hq1; omega)]
      split
      · rename_i m hm
        cases fuel with
        | zero => rfl
        | succ fuel =>
          rw [collect]
          rw [if_pos]
          rw [List.length_eq_zero_iff, List.eq_nil_iff_forall_not_mem]
          intro p hp
          obtain ⟨hp1, l, hl1, hf1⟩ := mem_validPatterns.1 hp
          obtain ⟨hp2, l', hl2, hf2⟩ := mem_validPatterns.1 hp1
          obtain ⟨hlt, e1⟩ := List.getElem?_eq_some_iff.1 hl1
          obtain ⟨hlt', e2⟩ := List.getElem?_eq_some_iff.1 hl2
          refine hstop p hp2 n m rfl hm (by simp; omega) ?_
          have : (p.drop i).take 2 = [l', l] := by
            rw [List.drop_eq_getElem_cons hlt', List.drop_eq_getElem_cons hlt, e1, e2]; rfl
          simp only [List.length_nil, Nat.zero_add, this, Fits]
          exact .cons hf2 (.cons hf1 .nil)
      · rfl
  | b :: c, n, 0, i, ps, _, hfuel, _, _ => by simp at hfuel
  | [], n, 0, i, ps, _, hfuel, _, _ => by simp at hfuel
  | b :: c, n, fuel + 1, i, ps, ho, hfuel, ⟨q, hq, hl, hf⟩, hstop => by
      have hl0 : i < q.length := by omega
      have hdrop : (q.drop i).take ((b :: c).length + 1) =
          q[i] :: (q.drop (i + 1)).take (c.length + 1) := by
        rw [List.drop_eq_getElem_cons hl0]; rfl
      rw [hdrop] at hf
      simp only [Fits] at hf
      cases hf with
      | cons h1 h2 =>
        have hq1 : q ∈ validPatterns S ps n i :=
          mem_validPatterns.2 ⟨hq, q[i], List.getElem?_eq_getElem _, h1⟩
        rw [collect]
        rw [if_neg (by have := List.length_pos_of_mem hq1; omega), next_of_only ho.1]
        simp only
        congr 1
        refine collect_eq S g c b fuel (i + 1) _ ho.2 (by simpa using hfuel)
          ⟨q, hq1, by simp at hl; omega, h2⟩ ?_
        intro p hp z m hz hm hpl hpf
        obtain ⟨hp2, l, hl1, hf1⟩ := mem_validPatterns.1 hp
        obtain ⟨hlt, e1⟩ := List.getElem?_eq_some_iff.1 hl1
        refine hstop p hp2 z m (by simpa using hz) hm (by simp; omega) ?_
        have : (p.drop i).take ((b :: c).length + 2) = l :: (p.drop (i + 1)).take (c.length + 2) := by
          rw [List.drop_eq_getElem_cons hlt, e1]; rfl
        rw [this]
        exact .cons hf1 hpf

theorem le_maxLen {ps : List (List P)} {p : List P} (h : p ∈ ps) : p.length ≤ maxLen ps := by
  rw [maxLen]
  have mono : ∀ (l : List (List P)) (a : Nat), a ≤ l.foldl (fun a p => max a p.length) a := by
    intro l
    induction l with
    | nil => intro a; exact Nat.le_refl _
    | cons q l ih => intro a; exact le_trans (Nat.le_max_left _ _) (ih _)
  have : ∀ (l : List (List P)) (a : Nat), p ∈ l → p.length ≤ l.foldl (fun a p => max a p.length) a := by
    intro l
    induction l with
    | nil => intro a h; simp at h
    | cons q l ih =>
      intro a h
      rcases List.mem_cons.1 h with rfl | h
      · exact le_trans (Nat.le_max_right _ _) (mono l _)
      · exact ih _ h
  exact this ps 0 h

end MCT.Fusing
