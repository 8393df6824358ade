import Verif.Moment.Spec
import Mathlib.Data.List.Forall2

namespace MCT.Moment

variable {V K : Type} [CommRing K]

/-- The same operation up to the statistics of normalizations in training mode. -/
def SimOp (fw : Fw) (o o' : Op V K) : Prop :=
  o' = o ∨ ∃ b m v, o = .bn b ∧ trains fw b = true ∧ o' = .bn { b with mean := m, var := v }

def Sim (fw : Fw) (l l' : Layer V K) : Prop := l'.arg = l.arg ∧ SimOp fw l.op l'.op

theorem trains_eq (fw : Fw) (b : Bn V K) : trains fw b = (b.flagged || (decide (fw = .keras) && b.trainable)) := by
  cases fw <;> simp [trains]

theorem outOf_bn (fw : Fw) (pass : Nat) (x : V) (b : Bn V K) :
    outOf fw pass x (.bn b) = if trains fw b then b.train x else b.infer b.mean b.var x := by
  simp only [outOf, trains_eq]

theorem outOf_sim {fw : Fw} {o o' : Op V K} (h : SimOp fw o o') (pass : Nat) (x : V) :
    outOf fw pass x o' = outOf fw pass x o := by
  rcases h with rfl | ⟨b, m, v, rfl, ht, rfl⟩
  · rfl
  · have ht' : trains fw { b with mean := m, var := v } = true := by
      cases fw <;> exact ht
    simp [outOf_bn, ht, ht']

theorem runOp_spec {fw : Fw} {pass : Nat} {x y : V} {o o' : Op V K} (h : runOp fw pass x o = some (y, o')) :
    y = outOf fw pass x o ∧ SimOp fw o o' := by
  cases o with
  | bn b =>
    simp only [runOp] at h
    split at h
    · rename_i ht
      obtain ⟨s, hs, he⟩ := Option.map_eq_some_iff.1 h
      simp only [Prod.mk.injEq] at he
      refine ⟨by simp [outOf_bn, ht, ← he.1], Or.inr ⟨b, _, _, rfl, ht, he.2.symm⟩⟩
    · rename_i ht
      simp only [Option.some.injEq, Prod.mk.injEq] at h
      exact ⟨by simp [outOf_bn, ht, ← h.1], Or.inl h.2.symm⟩
  | dropout mask =>
    cases fw <;> simp only [runOp, Option.some.injEq, Prod.mk.injEq] at h <;>
      exact ⟨by simp [outOf, ← h.1], Or.inl h.2.symm⟩
  | fn f =>
    simp only [runOp, Option.some.injEq, Prod.mk.injEq] at h
    exact ⟨by simp [outOf, ← h.1], Or.inl h.2.symm⟩

theorem values_sim {fw : Fw} (pass : Nat) {ls ls' : List (Layer V K)} (h : List.Forall₂ (Sim fw) ls ls') :
    ∀ env, values fw pass env ls' = values fw pass env ls := by
  induction h with
  | nil => intro env; rfl
  | cons h1 h2 ih =>
    intro env
    simp only [values, List.foldl_cons] at ih ⊢
    rw [h1.1, outOf_sim h1.2]
    exact ih _

theorem runModel_spec {fw : Fw} {pass : Nat} : ∀ {ls ls' : List (Layer V K)} {env : List V},
    runModel fw pass env ls = some ls' →
    List.Forall₂ (Sim fw) ls ls' ∧ ∀ (j : Nat) (l : Layer V K), ls[j]? = some l →
      ∃ y o', runOp fw pass (l.arg (values fw pass env (ls.take j))) l.op = some (y, o') ∧
        ls'[j]? = some { l with op := o' } := by
  intro ls
  induction ls with
  | nil =>
    intro ls' env h
    simp only [runModel, Option.some.injEq] at h
    subst h
    exact ⟨.nil, by simp⟩
  | cons l ls ih =>
    intro ls' env h
    simp only [runModel] at h
    obtain ⟨⟨y, o'⟩, hp, h⟩ := Option.bind_eq_some_iff.1 h
    obtain ⟨r, hr, rfl⟩ := Option.map_eq_some_iff.1 h
    obtain ⟨hy, hsim⟩ := runOp_spec hp
    obtain ⟨hf, hj⟩ := ih hr
    refine ⟨.cons ⟨rfl, hsim⟩ hf, ?_⟩
    intro j k hk
    cases j with
    | zero =>
      simp only [List.getElem?_cons_zero, Option.some.injEq] at hk
      subst hk
      exact ⟨y, o', by simpa [values] using hp, by simp⟩
    | succ j =>
      simp only [List.getElem?_cons_succ] at hk
      obtain ⟨y', o'', h1, h2⟩ := hj j k hk
      refine ⟨y', o'', ?_, by simpa using h2⟩
      simpa [values, hy] using h1

theorem seen_sim {fw : Fw} (pass : Nat) (d : V) {ls ls' : List (Layer V K)} (h : List.Forall₂ (Sim fw) ls ls')
    {l l' : Layer V K} (ha : l'.arg = l.arg) (j : Nat) : seen fw pass d ls' l' j = seen fw pass d ls l j := by
  unfold seen
  rw [ha, values_sim pass (List.forall₂_take j h)]

theorem runAll_spec {fw : Fw} : ∀ {ds : List V} {pass : Nat} {ls lsN : List (Layer V K)},
    runAll fw pass ds ls = some lsN →
    lsN.length = ls.length ∧ ∀ (j : Nat) (l : Layer V K), ls[j]? = some l →
      (∀ b, l.op = .bn b → trains fw b = true →
        ∃ ss : List ((Nat → K) × (Nat → K)), ss.length = ds.length ∧
          (∀ (i : Nat) (d : V) (s : (Nat → K) × (Nat → K)), ds[i]? = some d → ss[i]? = some s →
            b.batch (seen fw (pass + i) d ls l j) = some s) ∧
          lsN[j]? = some { l with op := .bn { b with
            mean := ss.foldl (fun m s => mix b.rho m s.1) b.mean
            var := ss.foldl (fun m s => mix b.rho m s.2) b.var } }) ∧
      ((∀ b, l.op = .bn b → trains fw b = false) → lsN[j]? = some l) := by
  intro ds
  induction ds with
  | nil =>
    intro pass ls lsN h
    simp only [runAll, Option.some.injEq] at h
    subst h
    refine ⟨rfl, fun j l hj => ⟨fun b hb _ => ⟨[], rfl, by simp, ?_⟩, fun _ => hj⟩⟩
    rw [hj]
    cases l
    simp only at hb
    simp [hb]
  | cons d ds ih =>
    intro pass ls lsN h
    simp only [runAll] at h
    obtain ⟨ls', h1, h2⟩ := Option.bind_eq_some_iff.1 h
    obtain ⟨hf, hrun⟩ := runModel_spec h1
    obtain ⟨hlen, hall⟩ := ih h2
    refine ⟨hlen.trans hf.length_eq.symm, ?_⟩
    intro j l hj
    obtain ⟨y, o', ho, hj'⟩ := hrun j l hj
    obtain ⟨hA, hB⟩ := hall j _ hj'
    constructor
    · intro b hb ht
      rw [hb] at ho
      simp only [runOp, ht, if_true] at ho
      obtain ⟨s, hs, he⟩ := Option.map_eq_some_iff.1 ho
      simp only [Prod.mk.injEq] at he
      have ht' : trains fw { b with mean := mix b.rho b.mean s.1, var := mix b.rho b.var s.2 } = true := by
        cases fw <;> exact ht
      obtain ⟨ss, hl, hss, hN⟩ := hA _ he.2.symm ht'
      refine ⟨s :: ss, by simp [hl], ?_, ?_⟩
      · intro i d' s' hd hs'
        cases i with
        | zero =>
          simp only [List.getElem?_cons_zero, Option.some.injEq] at hd hs'
          subst hd hs'
          exact hs
        | succ i =>
          simp only [List.getElem?_cons_succ] at hd hs'
          have := hss i d' s' hd hs'
          rw [seen_sim (l := l) (l' := ⟨l.arg, o'⟩) _ _ hf rfl] at this
          rwa [Nat.add_assoc, Nat.add_comm 1 i] at this
      · simpa using hN
    · intro hn
      have ho' : o' = l.op := by
        cases hop : l.op with
        | bn b =>
          rw [hop] at ho
          simp only [runOp, hn b hop, Bool.false_eq_true, if_false, Option.some.injEq, Prod.mk.injEq] at ho
          exact ho.2.symm
        | dropout mask =>
          rw [hop] at ho
          cases fw <;> simp only [runOp, Option.some.injEq, Prod.mk.injEq] at ho <;> exact ho.2.symm
        | fn f =>
          rw [hop] at ho
          simp only [runOp, Option.some.injEq, Prod.mk.injEq] at ho
          exact ho.2.symm
      subst ho'
      exact hB hn

theorem foldl_average (rho : K) : ∀ (xs : List K) (a : K),
    xs.foldl (fun m x => (1 - rho) * m + rho * x) a = average rho a xs := by
  intro xs
  induction xs with
  | nil => intro a; simp [average]
  | cons x xs ih =>
    intro a
    rw [List.foldl_cons, ih]
    unfold average
    simp only [List.length_cons]
    rw [Finset.sum_range_succ']
    have : ∀ i ∈ Finset.range xs.length, (1 - rho) ^ (xs.length + 1 - 1 - (i + 1)) * (x :: xs).getD (i + 1) 0 =
        (1 - rho) ^ (xs.length - 1 - i) * xs.getD i 0 := by
      intro i _
      rw [List.getD_cons_succ]
      congr 2
      omega
    rw [Finset.sum_congr rfl this]
    simp only [List.getD_cons_zero, Nat.add_sub_cancel, Nat.sub_zero]
    ring

theorem foldl_mix (rho : K) {S : Type} (g : S → Nat → K) (c : Nat) : ∀ (ss : List S) (a : Nat → K),
    ss.foldl (fun m s => mix rho m (g s)) a c = average rho (a c) (ss.map fun s => g s c) := by
  intro ss a
  rw [← foldl_average, List.foldl_map]
  induction ss generalizing a with
  | nil => rfl
  | cons s ss ih => rw [List.foldl_cons, List.foldl_cons, ih]; rfl

end MCT.Moment
