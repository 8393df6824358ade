import Verif.Common.Lists
import Verif.MP.Model
import Mathlib.Algebra.Order.BigOperators.Group.List
import Mathlib.Algebra.BigOperators.Group.List.Basic
import Mathlib.Tactic.Linarith
import Mathlib.Tactic.LinearCombination
import Mathlib.Tactic.Ring
import Mathlib.Tactic.FieldSimp
import Mathlib.Tactic.Push

set_option linter.unusedSectionVars false

/-! # Lemmas about the mixed-precision model -/

namespace MCT.MP

variable {K : Type*} [Field K] [LinearOrder K] [IsStrictOrderedRing K]

/-! ### Optional sums -/

theorem mapM_total {α β : Type*} (f : α → Option β) (g : α → β) (l : List α)
    (h : ∀ x ∈ l, f x = some (g x)) : l.mapM f = some (l.map g) := by
  rw [Common.mapM_some_iff]
  induction l with
  | nil => exact .nil
  | cons a l ih => exact .cons (h a (by simp)) (ih fun x hx => h x (List.mem_cons_of_mem _ hx))

theorem mapM_isSome {α β : Type*} (f : α → Option β) (l : List α) :
    (l.mapM f).isSome ↔ ∀ x ∈ l, (f x).isSome := by
  constructor
  · intro h x hx
    obtain ⟨r, hr⟩ := Option.isSome_iff_exists.mp h
    rw [Common.mapM_some_iff] at hr
    clear h
    induction hr with
    | nil => simp at hx
    | cons e _ ih =>
      rcases List.mem_cons.mp hx with rfl | hx
      · rw [e]; rfl
      · exact ih hx
  · intro h
    have : l.mapM f = some (l.pmap (fun x hx => (f x).get hx) h) := by
      rw [Common.mapM_some_iff]
      induction l with
      | nil => exact .nil
      | cons a l ih =>
        exact .cons (by simp) (ih fun x hx => h x (List.mem_cons_of_mem _ hx))
    rw [this]; rfl

theorem mapM_getD {α : Type*} (f : α → Option K) (l : List α) (h : (l.mapM f).isSome) :
    l.mapM f = some (l.map fun x => (f x).getD 0) := by
  apply mapM_total
  intro x hx
  obtain ⟨v, hv⟩ := Option.isSome_iff_exists.mp ((mapM_isSome f l).mp h x hx)
  rw [hv]; rfl

theorem sumM_isSome {α : Type*} (f : α → Option K) (l : List α) :
    (sumM f l).isSome ↔ ∀ x ∈ l, (f x).isSome := by
  unfold sumM; rw [Option.isSome_map]; exact mapM_isSome f l

theorem sumM_getD {α : Type*} (f : α → Option K) (l : List α) (h : (sumM f l).isSome) :
    sumM f l = some (l.map fun x => (f x).getD 0).sum := by
  unfold sumM at h ⊢
  rw [Option.isSome_map] at h
  rw [mapM_getD f l h]; rfl

theorem sumM_congr {α : Type*} {f g : α → Option K} {l : List α} (h : ∀ x ∈ l, f x = g x) :
    sumM f l = sumM g l := by
  unfold sumM
  have : l.mapM f = l.mapM g := by
    induction l with
    | nil => rfl
    | cons a l ih =>
      simp only [List.mapM_cons, h a (by simp), ih fun x hx => h x (List.mem_cons_of_mem _ hx)]
  rw [this]

/-! ### Additivity -/

/-- `F` at `cfg` is predicted from `m` by changing one layer at a time. -/
def AddAt (U : List ℕ) (m cfg : ℕ → ℕ) (F : (ℕ → ℕ) → K) : Prop :=
  F cfg = F m + (U.map fun u => F (setCfg m u (cfg u)) - F m).sum

theorem AddAt.const (U : List ℕ) (m cfg : ℕ → ℕ) (F : (ℕ → ℕ) → K)
    (h1 : F cfg = F m) (h2 : ∀ u ∈ U, F (setCfg m u (cfg u)) = F m) : AddAt U m cfg F := by
  unfold AddAt
  have : U.map (fun u => F (setCfg m u (cfg u)) - F m) = U.map fun _ => (0 : K) := by
    apply List.map_congr_left; intro u hu; rw [h2 u hu, sub_self]
  rw [this, h1]; simp

theorem AddAt.add {U : List ℕ} {m cfg : ℕ → ℕ} {F G : (ℕ → ℕ) → K}
    (hF : AddAt U m cfg F) (hG : AddAt U m cfg G) : AddAt U m cfg (fun c => F c + G c) := by
  unfold AddAt at *
  have : (U.map fun u => F (setCfg m u (cfg u)) + G (setCfg m u (cfg u)) - (F m + G m)) =
      U.map fun u => (F (setCfg m u (cfg u)) - F m) + (G (setCfg m u (cfg u)) - G m) := by
    apply List.map_congr_left; intro u _; ring
  rw [this, List.sum_map_add]
  show F cfg + G cfg = F m + G m + _
  rw [hF, hG]; ring

theorem AddAt.listSum {α : Type*} {U : List ℕ} {m cfg : ℕ → ℕ} (l : List α)
    (f : α → (ℕ → ℕ) → K) (h : ∀ x ∈ l, AddAt U m cfg (f x)) :
    AddAt U m cfg (fun c => (l.map fun x => f x c).sum) := by
  induction l with
  | nil => exact AddAt.const _ _ _ _ rfl (fun _ _ => rfl)
  | cons a l ih =>
    have := (h a (by simp)).add (ih fun x hx => h x (List.mem_cons_of_mem _ hx))
    simpa using this

/-- A function of one layer of the space is additive. -/
theorem AddAt.local {U : List ℕ} (hU : U.Nodup) {m cfg : ℕ → ℕ} {F : (ℕ → ℕ) → K} {j : ℕ}
    (hj : j ∈ U) (h1 : F (setCfg m j (cfg j)) = F cfg)
    (h2 : ∀ u ∈ U, u ≠ j → F (setCfg m u (cfg u)) = F m) : AddAt U m cfg F := by
  unfold AddAt
  have key : ∀ V : List ℕ, V.Nodup → (∀ u ∈ V, u ∈ U) →
      (V.map fun u => F (setCfg m u (cfg u)) - F m).sum = if j ∈ V then F cfg - F m else 0 := by
    intro V hV hVU
    induction V with
    | nil => simp
    | cons v V ih =>
      rw [List.nodup_cons] at hV
      rw [List.map_cons, List.sum_cons, ih hV.2 (fun u hu => hVU u (List.mem_cons_of_mem _ hu))]
      by_cases hvj : v = j
      · subst hvj
        rw [if_neg hV.1, h1, if_pos (by simp)]; ring
      · rw [h2 v (hVU v (by simp)) hvj, sub_self, zero_add]
        have : (j ∈ v :: V) ↔ j ∈ V := by simp [Ne.symm hvj]
        simp only [this]
  rw [key U hU (fun _ h => h), if_pos hj]; ring

theorem setCfg_same (m : ℕ → ℕ) (l c : ℕ) : setCfg m l c l = c := by simp [setCfg]

theorem setCfg_ne (m : ℕ → ℕ) {l j : ℕ} (c : ℕ) (h : j ≠ l) : setCfg m l c j = m j := by
  simp [setCfg, h]

/-! ### Locality of the utilization -/

theorem mem_confNodes {net : Net} {i : ℕ} :
    i ∈ net.confNodes ↔ ∃ n, net.nodes[i]? = some n ∧ n.conf = true := by
  unfold Net.confNodes
  rw [List.mem_filter, List.mem_range]
  constructor
  · rintro ⟨h1, h2⟩
    rw [List.getElem?_eq_getElem h1] at h2 ⊢
    exact ⟨_, rfl, h2⟩
  · rintro ⟨n, h1, h2⟩
    obtain ⟨h, _⟩ := List.getElem?_eq_some_iff.mp h1
    exact ⟨h, by rw [h1]; exact h2⟩

theorem confNodes_nodup (net : Net) : net.confNodes.Nodup := List.Nodup.filter _ List.nodup_range

theorem weightBits_congr (net : Net) {c c' : ℕ → ℕ} {i k : ℕ}
    (h : i ∈ net.confNodes → c i = c' i) : net.weightBits c i k = net.weightBits c' i k := by
  unfold Net.weightBits
  rcases hn : net.nodes[i]? with _ | n
  · rfl
  · simp only []
    rcases n.attrs[k]? with _ | ⟨s, q⟩
    · rfl
    · simp only []
      by_cases hc : n.conf = true
      · rw [if_pos hc, if_pos hc, h (mem_confNodes.mpr ⟨n, hn, hc⟩)]
      · rw [if_neg hc, if_neg hc]

theorem nodeWeights_congr (net : Net) {c c' : ℕ → ℕ} {i : ℕ}
    (h : i ∈ net.confNodes → c i = c' i) :
    net.nodeWeights (K := K) c i = net.nodeWeights c' i := by
  unfold Net.nodeWeights
  rcases net.nodes[i]? with _ | n
  · rfl
  · simp only []
    apply sumM_congr
    intro p _
    rw [weightBits_congr net h]

theorem actBits_congr (net : Net) {c c' : ℕ → ℕ} {i : ℕ}
    (h : ∀ j, net.preserved (net.nodes.length + 1) i = some j → j ∈ net.confNodes → c j = c' j) :
    net.actBits c i = net.actBits c' i := by
  unfold Net.actBits
  rcases hp : net.preserved (net.nodes.length + 1) i with _ | j
  · rfl
  · simp only []
    rcases hn : net.nodes[j]? with _ | n
    · rfl
    · simp only []
      by_cases hc : n.conf = true
      · rw [if_pos hc, if_pos hc, h j hp (mem_confNodes.mpr ⟨n, hn, hc⟩)]
      · rw [if_neg hc, if_neg hc]

theorem nodeAct_congr (net : Net) {c c' : ℕ → ℕ} {i : ℕ}
    (h : ∀ j, net.preserved (net.nodes.length + 1) i = some j → j ∈ net.confNodes → c j = c' j) :
    net.nodeAct (K := K) c i = net.nodeAct c' i := by
  unfold Net.nodeAct
  rw [actBits_congr net h]

/-- A family of optional functions, each reading at most one layer of `U`. -/
theorem sumM_additive {α : Type*} {U : List ℕ} (hU : U.Nodup) {m cfg : ℕ → ℕ} (l : List α)
    (f : α → (ℕ → ℕ) → Option K)
    (hloc : ∀ x ∈ l, (∃ j ∈ U, ∀ c c' : ℕ → ℕ, c j = c' j → f x c = f x c') ∨
      (∀ c c' : ℕ → ℕ, f x c = f x c'))
    (hm : (sumM (fun x => f x m) l).isSome)
    (hu : ∀ u ∈ U, (sumM (fun x => f x (setCfg m u (cfg u))) l).isSome) :
    (sumM (fun x => f x cfg) l).isSome ∧
    AddAt U m cfg (fun c => (sumM (fun x => f x c) l).getD 0) := by
  have hsome : ∀ x ∈ l, (f x cfg).isSome := by
    intro x hx
    rcases hloc x hx with ⟨j, hj, h⟩ | h
    · rw [h cfg (setCfg m j (cfg j)) (setCfg_same m j (cfg j)).symm]
      exact (sumM_isSome _ _).mp (hu j hj) x hx
    · rw [h cfg m]
      exact (sumM_isSome _ _).mp hm x hx
  have hc : (sumM (fun x => f x cfg) l).isSome := (sumM_isSome _ _).mpr hsome
  refine ⟨hc, ?_⟩
  have hadd : AddAt U m cfg (fun c => (l.map fun x => (f x c).getD 0).sum) := by
    apply AddAt.listSum l (fun x c => (f x c).getD 0)
    intro x hx
    rcases hloc x hx with ⟨j, hj, h⟩ | h
    · apply AddAt.local hU hj
      · rw [h _ _ (setCfg_same m j (cfg j))]
      · intro u _ huj
        rw [h _ _ (setCfg_ne m (cfg u) huj.symm)]
    · exact AddAt.const _ _ _ _ (by rw [h cfg m]) (fun u _ => by rw [h _ m])
  unfold AddAt at hadd ⊢
  simp only [] at hadd ⊢
  rw [sumM_getD _ _ hc, sumM_getD _ _ hm, Option.getD_some, Option.getD_some, hadd]
  congr 2
  apply List.map_congr_left
  intro u hu'
  rw [sumM_getD _ _ (hu u hu'), Option.getD_some]

theorem weights_additive (net : Net) {m cfg : ℕ → ℕ}
    (hm : (net.weights (K := K) m).isSome)
    (hu : ∀ u ∈ net.confNodes, (net.weights (K := K) (setCfg m u (cfg u))).isSome) :
    (net.weights (K := K) cfg).isSome ∧
    AddAt net.confNodes m cfg (fun c => (net.weights (K := K) c).getD 0) := by
  apply sumM_additive (confNodes_nodup net) (List.range net.nodes.length)
    (fun i c => net.nodeWeights (K := K) c i) ?_ hm hu
  intro i _
  by_cases hi : i ∈ net.confNodes
  · exact Or.inl ⟨i, hi, fun c c' h => nodeWeights_congr net (fun _ => h)⟩
  · exact Or.inr fun c c' => nodeWeights_congr net (fun h => absurd h hi)

theorem cutUtil_additive (net : Net) (cut : List ℕ) {m cfg : ℕ → ℕ}
    (hm : (net.cutUtil (K := K) m cut).isSome)
    (hu : ∀ u ∈ net.confNodes, (net.cutUtil (K := K) (setCfg m u (cfg u)) cut).isSome) :
    (net.cutUtil (K := K) cfg cut).isSome ∧
    AddAt net.confNodes m cfg (fun c => (net.cutUtil (K := K) c cut).getD 0) := by
  apply sumM_additive (confNodes_nodup net) (net.actTargets cut).dedup
    (fun i c => net.nodeAct (K := K) c i) ?_ hm hu
  intro i _
  by_cases hi : ∃ j ∈ net.confNodes, net.preserved (net.nodes.length + 1) i = some j
  · obtain ⟨j, hj, hp⟩ := hi
    refine Or.inl ⟨j, hj, fun c c' h => nodeAct_congr net fun j' hp' _ => ?_⟩
    rw [hp] at hp'; injection hp' with e; rw [← e]; exact h
  · refine Or.inr fun c c' => nodeAct_congr net fun j' hp' hj' => ?_
    exact absurd ⟨j', hj', hp'⟩ hi

theorem actPerCut_isSome (net : Net) (c : ℕ → ℕ) :
    (net.actPerCut (K := K) c).isSome ↔ ∀ cut ∈ net.usedCuts, (net.cutUtil (K := K) c cut).isSome :=
  mapM_isSome _ _

theorem actPerCut_eq (net : Net) (c : ℕ → ℕ) (h : (net.actPerCut (K := K) c).isSome) :
    net.actPerCut (K := K) c = some (net.usedCuts.map fun cut => (net.cutUtil (K := K) c cut).getD 0) :=
  mapM_getD _ _ h

theorem listMax_isSome (l : List K) : (listMax l).isSome ↔ l ≠ [] := by
  cases l <;> simp [listMax]

/-- The total activation computation fails exactly like the per-cut one, independent of the values. -/
theorem actTotal_isSome (net : Net) (c : ℕ → ℕ) :
    (net.actTotal (K := K) c).isSome ↔
      net.actTargets [] = [] ∨ ((net.actPerCut (K := K) c).isSome ∧ net.usedCuts ≠ []) := by
  unfold Net.actTotal
  split_ifs with h
  · simp [h]
  · simp only [h, false_or]
    rcases hp : net.actPerCut (K := K) c with _ | l
    · simp
    · have := actPerCut_eq (K := K) net c (by rw [hp]; rfl)
      rw [hp] at this; injection this with this
      simp only [Option.bind_some, Option.isSome_some, true_and]
      rw [listMax_isSome, this]
      simp

end MCT.MP
