import Verif.Sens.Model

/-! # Lemmas on applying a configuration to the evaluation model -/

namespace MCT.Sens

open MCT.MP

set_option linter.unusedSimpArgs false
set_option linter.unusedVariables false

/-- The first layer of a kind in a list. -/
def firstOf (k : Kind) (ls : List Layer) : Option Layer := ls.find? fun l => decide (l.2 = k)

theorem firstOf_kind {k : Kind} {ls : List Layer} {l : Layer} (h : firstOf k ls = some l) :
    l.2 = k ∧ l ∈ ls := by
  unfold firstOf at h
  exact ⟨by simpa using List.find?_some h, List.mem_of_find?_eq_some h⟩

theorem firstOf_cons_eq {k : Kind} {l : Layer} {ls : List Layer} (h : l.2 = k) :
    firstOf k (l :: ls) = some l := by
  simp [firstOf, h]

theorem firstOf_cons_ne {k : Kind} {l : Layer} {ls : List Layer} (h : l.2 ≠ k) :
    firstOf k (l :: ls) = firstOf k ls := by
  simp [firstOf, h]

theorem lookup_pop_self (a : Cfg) (n : ℕ) : (a.pop n).lookup n = none := by
  induction a with
  | nil => rfl
  | cons p a ih =>
    unfold Cfg.pop at ih ⊢
    by_cases h : p.1 = n
    · simp only [List.filter_cons, h, ne_eq, not_true_eq_false, decide_false]
      exact ih
    · simp only [List.filter_cons, h, ne_eq, not_false_eq_true, decide_true, if_true]
      rcases p with ⟨x, y⟩
      rw [List.lookup_cons]
      have : (n == x) = false := by simpa using fun e : n = x => h e.symm
      rw [this]
      exact ih

theorem lookup_pop_ne (a : Cfg) {n n' : ℕ} (h : n' ≠ n) : (a.pop n).lookup n' = a.lookup n' := by
  induction a with
  | nil => rfl
  | cons p a ih =>
    unfold Cfg.pop at ih ⊢
    rcases p with ⟨x, y⟩
    by_cases hx : x = n
    · simp only [List.filter_cons, hx, ne_eq, not_true_eq_false, decide_false]
      rw [List.lookup_cons]
      have : (n' == n) = false := by simpa using h
      rw [this]
      exact ih
    · simp only [List.filter_cons, hx, ne_eq, not_false_eq_true, decide_true, if_true]
      rw [List.lookup_cons, List.lookup_cons, ih]

theorem lookup_isSome (a : Cfg) (n : ℕ) : (a.lookup n).isSome = true ↔ n ∈ a.keys := by
  induction a with
  | nil => simp [Cfg.keys]
  | cons p a ih =>
    rcases p with ⟨x, y⟩
    rw [List.lookup_cons]
    unfold Cfg.keys at ih ⊢
    by_cases h : n = x
    · simp [h]
    · have : (n == x) = false := by simpa using h
      rw [this]
      simp only [List.map_cons, List.mem_cons, h, false_or]
      exact ih

/-- The value a request gives to a layer: what is looked up if the layer is the one addressed. -/
def pick (k : Kind) (ls : List Layer) (o : Option (Option ℕ)) (st : State) (l : Layer) : Option ℕ :=
  if firstOf k ls = some l then (match o with | some v => v | none => st l) else st l

/-- The state after the layers of one node have been set. -/
def nodeState (ls : List Layer) (oa ow : Option (Option ℕ)) (st : State) : State := fun l =>
  match l.2 with
  | .act => pick .act ls oa st l
  | .wts => pick .wts ls ow st l

/-- The indices requested of one node are in range. -/
def InRange (m : EvalModel) (k : Kind) (ls : List Layer) (o : Option (Option ℕ)) : Prop :=
  ∀ l c, firstOf k ls = some l → o = some (some c) → c < m.ncand l

/-- What is left of a dict after the layers of node `n` have been set. -/
def left (k : Kind) (ls : List Layer) (a : Cfg) (n : ℕ) : Cfg :=
  if (firstOf k ls).isSome then a.pop n else a

theorem pop_of_lookup_none {a : Cfg} {n : ℕ} (h : a.lookup n = none) : a.pop n = a := by
  unfold Cfg.pop
  rw [List.filter_eq_self]
  intro p hp
  have : n ∉ a.keys := by
    rw [← lookup_isSome, h]; simp
  simp only [ne_eq, decide_eq_true_eq]
  intro e
  exact this (by unfold Cfg.keys; rw [List.mem_map]; exact ⟨p, hp, e⟩)

theorem setLayer_some {m : EvalModel} {st : State} {l : Layer} {v : Option ℕ}
    (h : ∀ c, v = some c → c < m.ncand l) :
    setLayer m st l v = some fun l' => if l' = l then v else st l' := by
  unfold setLayer
  rcases v with _ | c
  · rfl
  · simp [h c rfl]

theorem setLayer_none {m : EvalModel} {st : State} {l : Layer} {c : ℕ} (h : ¬ c < m.ncand l) :
    setLayer m st l (some c) = none := by
  simp [setLayer, h]

theorem nodeState_none (ls : List Layer) (st : State) : nodeState ls none none st = st := by
  funext l
  unfold nodeState pick
  rcases l with ⟨i, k⟩
  cases k <;> simp

theorem applyLayers_ok (m : EvalModel) (n : ℕ) : ∀ (ls : List Layer) (a w : Cfg) (st : State),
    InRange m .act ls (a.lookup n) → InRange m .wts ls (w.lookup n) →
    applyLayers m n ls a w st =
      .ok (left .act ls a n, left .wts ls w n, nodeState ls (a.lookup n) (w.lookup n) st) := by
  intro ls
  induction ls with
  | nil =>
    intro a w st _ _
    simp only [applyLayers, left, firstOf, List.find?_nil, Option.isSome_none, Bool.false_eq_true,
      if_false]
    congr 3
    funext l
    unfold nodeState pick
    rcases l with ⟨i, k⟩
    cases k <;> simp [firstOf]
  | cons l ls ih =>
    intro a w st ha hw
    rcases l with ⟨i, k⟩
    cases k with
    | act =>
      have hfw : firstOf .wts ((i, Kind.act) :: ls) = firstOf .wts ls := firstOf_cons_ne (by simp)
      have hfa : firstOf .act ((i, Kind.act) :: ls) = some (i, Kind.act) := firstOf_cons_eq rfl
      have hw' : InRange m .wts ls (w.lookup n) := by
        intro l c h1 h2; exact hw l c (by rw [hfw]; exact h1) h2
      simp only [applyLayers]
      rcases hl : a.lookup n with _ | v
      · simp only []
        rw [ih a w st (by intro l c _ h2; rw [hl] at h2; simp at h2) hw']
        have e1 : left .act ((i, Kind.act) :: ls) a n = left .act ls a n := by
          unfold left; rw [pop_of_lookup_none hl]; simp
        have e2 : left .wts ((i, Kind.act) :: ls) w n = left .wts ls w n := by
          unfold left; rw [hfw]
        rw [e1, e2, hl]
        congr 3
        funext l
        unfold nodeState pick
        rcases l with ⟨j, k⟩
        cases k
        · simp
        · simp only [hfw]
      · simp only []
        have hr : ∀ c, v = some c → c < m.ncand (i, Kind.act) := by
          intro c hc; exact ha _ c hfa (by rw [hl, hc])
        rw [setLayer_some hr]
        simp only []
        rw [ih (a.pop n) w _ (by intro l c _ h2; rw [lookup_pop_self] at h2; simp at h2) hw']
        have e1 : left .act ((i, Kind.act) :: ls) a n = left .act ls (a.pop n) n := by
          unfold left
          rw [hfa, pop_of_lookup_none (lookup_pop_self a n)]
          simp
        have e2 : left .wts ((i, Kind.act) :: ls) w n = left .wts ls w n := by
          unfold left; rw [hfw]
        rw [e1, e2, lookup_pop_self]
        congr 3
        funext l
        unfold nodeState pick
        rcases l with ⟨j, k⟩
        cases k
        · simp only [hfa]
          by_cases hj : j = i
          · subst hj; simp
          · have : ¬ (i, Kind.act) = (j, Kind.act) := by simpa using fun e => hj e.symm
            simp [this, hj]
        · simp [hfw]
    | wts =>
      have hfa : firstOf .act ((i, Kind.wts) :: ls) = firstOf .act ls := firstOf_cons_ne (by simp)
      have hfw : firstOf .wts ((i, Kind.wts) :: ls) = some (i, Kind.wts) := firstOf_cons_eq rfl
      have ha' : InRange m .act ls (a.lookup n) := by
        intro l c h1 h2; exact ha l c (by rw [hfa]; exact h1) h2
      simp only [applyLayers]
      rcases hl : w.lookup n with _ | v
      · simp only []
        rw [ih a w st ha' (by intro l c _ h2; rw [hl] at h2; simp at h2)]
        have e1 : left .wts ((i, Kind.wts) :: ls) w n = left .wts ls w n := by
          unfold left; rw [pop_of_lookup_none hl]; simp
        have e2 : left .act ((i, Kind.wts) :: ls) a n = left .act ls a n := by
          unfold left; rw [hfa]
        rw [e1, e2, hl]
        congr 3
        funext l
        unfold nodeState pick
        rcases l with ⟨j, k⟩
        cases k
        · simp only [hfa]
        · simp
      · simp only []
        have hr : ∀ c, v = some c → c < m.ncand (i, Kind.wts) := by
          intro c hc; exact hw _ c hfw (by rw [hl, hc])
        rw [setLayer_some hr]
        simp only []
        rw [ih a (w.pop n) _ ha' (by intro l c _ h2; rw [lookup_pop_self] at h2; simp at h2)]
        have e1 : left .wts ((i, Kind.wts) :: ls) w n = left .wts ls (w.pop n) n := by
          unfold left
          rw [hfw, pop_of_lookup_none (lookup_pop_self w n)]
          simp
        have e2 : left .act ((i, Kind.wts) :: ls) a n = left .act ls a n := by
          unfold left; rw [hfa]
        rw [e1, e2, lookup_pop_self]
        congr 3
        funext l
        unfold nodeState pick
        rcases l with ⟨j, k⟩
        cases k
        · simp [hfa]
        · simp only [hfw]
          by_cases hj : j = i
          · subst hj; simp
          · have : ¬ (i, Kind.wts) = (j, Kind.wts) := by simpa using fun e => hj e.symm
            simp [this, hj]

theorem applyLayers_error (m : EvalModel) (n : ℕ) : ∀ (ls : List Layer) (a w : Cfg) (st : State),
    ¬ (InRange m .act ls (a.lookup n) ∧ InRange m .wts ls (w.lookup n)) →
    ∃ st', applyLayers m n ls a w st = .error st' := by
  intro ls
  induction ls with
  | nil =>
    intro a w st h
    exact absurd ⟨by intro l c h1; simp [firstOf] at h1, by intro l c h1; simp [firstOf] at h1⟩ h
  | cons l ls ih =>
    intro a w st h
    rcases l with ⟨i, k⟩
    cases k with
    | act =>
      have hfw : firstOf .wts ((i, Kind.act) :: ls) = firstOf .wts ls := firstOf_cons_ne (by simp)
      have hfa : firstOf .act ((i, Kind.act) :: ls) = some (i, Kind.act) := firstOf_cons_eq rfl
      simp only [applyLayers]
      rcases hl : a.lookup n with _ | v
      · simp only []
        apply ih
        rintro ⟨h1, h2⟩
        exact h ⟨by intro l c _ h4; rw [hl] at h4; simp at h4,
          by intro l c h3 h4; rw [hfw] at h3; exact h2 l c h3 h4⟩
      · simp only []
        by_cases hr : ∀ c, v = some c → c < m.ncand (i, Kind.act)
        · rw [setLayer_some hr]
          simp only []
          apply ih
          rintro ⟨h1, h2⟩
          refine h ⟨?_, by intro l c h3 h4; rw [hfw] at h3; exact h2 l c h3 h4⟩
          intro l c h3 h4
          rw [hfa] at h3
          rw [hl] at h4
          cases h3
          exact hr c (by simpa using h4)
        · push Not at hr
          obtain ⟨c, hc, hlt⟩ := hr
          subst hc
          rw [setLayer_none (by omega)]
          exact ⟨st, rfl⟩
    | wts =>
      have hfa : firstOf .act ((i, Kind.wts) :: ls) = firstOf .act ls := firstOf_cons_ne (by simp)
      have hfw : firstOf .wts ((i, Kind.wts) :: ls) = some (i, Kind.wts) := firstOf_cons_eq rfl
      simp only [applyLayers]
      rcases hl : w.lookup n with _ | v
      · simp only []
        apply ih
        rintro ⟨h1, h2⟩
        exact h ⟨by intro l c h3 h4; rw [hfa] at h3; exact h1 l c h3 h4,
          by intro l c _ h4; rw [hl] at h4; simp at h4⟩
      · simp only []
        by_cases hr : ∀ c, v = some c → c < m.ncand (i, Kind.wts)
        · rw [setLayer_some hr]
          simp only []
          apply ih
          rintro ⟨h1, h2⟩
          refine h ⟨by intro l c h3 h4; rw [hfa] at h3; exact h1 l c h3 h4, ?_⟩
          intro l c h3 h4
          rw [hfw] at h3
          rw [hl] at h4
          cases h3
          exact hr c (by simpa using h4)
        · push Not at hr
          obtain ⟨c, hc, hlt⟩ := hr
          subst hc
          rw [setLayer_none (by omega)]
          exact ⟨st, rfl⟩

/-! ### All the nodes of a request -/

/-- The layers of a node, none if it is unknown. -/
def layersOf (m : EvalModel) (n : ℕ) : List Layer := (m.ofNode n).getD []

/-- A node of a request can be applied. -/
def NodeOk (m : EvalModel) (a w : Cfg) (n : ℕ) : Prop :=
  (m.ofNode n).isSome ∧ InRange m .act (layersOf m n) (a.lookup n) ∧
    InRange m .wts (layersOf m n) (w.lookup n)

/-- The state after the nodes of a list have been set. -/
def foldState (m : EvalModel) (a w : Cfg) : List ℕ → State → State
  | [], st => st
  | n :: ns, st => foldState m a w ns (nodeState (layersOf m n) (a.lookup n) (w.lookup n) st)

/-- What is left of a dict after the nodes of a list. -/
def leftAll (m : EvalModel) (k : Kind) : List ℕ → Cfg → Cfg
  | [], a => a
  | n :: ns, a => leftAll m k ns (left k (layersOf m n) a n)

theorem lookup_left_ne {k : Kind} {ls : List Layer} {a : Cfg} {n n' : ℕ} (h : n' ≠ n) :
    (left k ls a n).lookup n' = a.lookup n' := by
  unfold left
  split
  · exact lookup_pop_ne a h
  · rfl

theorem foldState_congr (m : EvalModel) {a a' w w' : Cfg} : ∀ (ns : List ℕ) (st : State),
    (∀ n ∈ ns, a.lookup n = a'.lookup n ∧ w.lookup n = w'.lookup n) →
    foldState m a w ns st = foldState m a' w' ns st := by
  intro ns
  induction ns with
  | nil => intro st _; rfl
  | cons n ns ih =>
    intro st h
    simp only [foldState]
    obtain ⟨h1, h2⟩ := h n (by simp)
    rw [h1, h2]
    exact ih _ fun n' hn' => h n' (by simp [hn'])

theorem nodeOk_congr {m : EvalModel} {a a' w w' : Cfg} {n : ℕ} (h1 : a.lookup n = a'.lookup n)
    (h2 : w.lookup n = w'.lookup n) : NodeOk m a w n ↔ NodeOk m a' w' n := by
  unfold NodeOk
  rw [h1, h2]

theorem applyNodes_ok (m : EvalModel) : ∀ (order : List ℕ) (a w : Cfg) (st : State), order.Nodup →
    (∀ n ∈ order, NodeOk m a w n) →
    applyNodes m order a w st =
      .ok (leftAll m .act order a, leftAll m .wts order w, foldState m a w order st) := by
  intro order
  induction order with
  | nil => intro a w st _ _; rfl
  | cons n ns ih =>
    intro a w st hnd hok
    rw [List.nodup_cons] at hnd
    obtain ⟨h1, h2, h3⟩ := hok n (by simp)
    obtain ⟨ls, hls⟩ := Option.isSome_iff_exists.mp h1
    have hlo : layersOf m n = ls := by simp [layersOf, hls]
    simp only [applyNodes, hls]
    rw [hlo] at h2 h3
    rw [applyLayers_ok m n ls a w st h2 h3]
    simp only []
    have hne : ∀ n' ∈ ns, n' ≠ n := by
      intro n' hn' e; rw [e] at hn'; exact hnd.1 hn'
    rw [ih _ _ _ hnd.2 (fun n' hn' => (nodeOk_congr (lookup_left_ne (hne n' hn'))
      (lookup_left_ne (hne n' hn'))).mpr (hok n' (by simp [hn'])))]
    simp only [leftAll, foldState, hlo]
    congr 3
    exact foldState_congr m ns _ fun n' hn' =>
      ⟨lookup_left_ne (hne n' hn'), lookup_left_ne (hne n' hn')⟩

theorem applyNodes_error (m : EvalModel) : ∀ (order : List ℕ) (a w : Cfg) (st : State), order.Nodup →
    (∃ n ∈ order, ¬ NodeOk m a w n) → ∃ st', applyNodes m order a w st = .error st' := by
  intro order
  induction order with
  | nil => intro a w st _ h; simp at h
  | cons n ns ih =>
    intro a w st hnd h
    rw [List.nodup_cons] at hnd
    simp only [applyNodes]
    rcases hls : m.ofNode n with _ | ls
    · exact ⟨st, rfl⟩
    · have hlo : layersOf m n = ls := by simp [layersOf, hls]
      simp only []
      by_cases hg : InRange m .act ls (a.lookup n) ∧ InRange m .wts ls (w.lookup n)
      · rw [applyLayers_ok m n ls a w st hg.1 hg.2]
        simp only []
        have hne : ∀ n' ∈ ns, n' ≠ n := by
          intro n' hn' e; rw [e] at hn'; exact hnd.1 hn'
        apply ih _ _ _ hnd.2
        obtain ⟨n', hn', hbad⟩ := h
        rcases List.mem_cons.mp hn' with e | hmem
        · exfalso
          rw [e] at hbad
          exact hbad ⟨by simp [hls], by rw [hlo]; exact hg.1, by rw [hlo]; exact hg.2⟩
        · exact ⟨n', hmem, fun hh => hbad ((nodeOk_congr (lookup_left_ne (hne n' hmem))
            (lookup_left_ne (hne n' hmem))).mp hh)⟩
      · obtain ⟨st', h'⟩ := applyLayers_error m n ls a w st hg
        rw [h']
        exact ⟨st', rfl⟩

theorem mem_left {k : Kind} {ls : List Layer} {a : Cfg} {n : ℕ} {p : ℕ × Option ℕ} :
    p ∈ left k ls a n ↔ p ∈ a ∧ ¬ (p.1 = n ∧ (firstOf k ls).isSome = true) := by
  unfold left Cfg.pop
  split
  · rename_i h; simp [h]
  · rename_i h; simp [h]

theorem mem_leftAll (m : EvalModel) (k : Kind) : ∀ (order : List ℕ) (a : Cfg) (p : ℕ × Option ℕ),
    p ∈ leftAll m k order a ↔
      p ∈ a ∧ ¬ (p.1 ∈ order ∧ (firstOf k (layersOf m p.1)).isSome = true) := by
  intro order
  induction order with
  | nil => intro a p; simp [leftAll]
  | cons n ns ih =>
    intro a p
    simp only [leftAll]
    rw [ih, mem_left]
    constructor
    · rintro ⟨⟨h1, h2⟩, h3⟩
      refine ⟨h1, ?_⟩
      rintro ⟨h4, h5⟩
      rcases List.mem_cons.mp h4 with e | h4
      · exact h2 ⟨e, by rw [← e]; exact h5⟩
      · exact h3 ⟨h4, h5⟩
    · rintro ⟨h1, h2⟩
      refine ⟨⟨h1, ?_⟩, ?_⟩
      · rintro ⟨h4, h5⟩
        exact h2 ⟨by simp [h4], by rw [h4]; exact h5⟩
      · rintro ⟨h4, h5⟩
        exact h2 ⟨by simp [h4], h5⟩

end MCT.Sens
