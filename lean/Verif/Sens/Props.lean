import Verif.Sens.Lemmas
import Verif.Sens.Spec

/-! # Sensitivity evaluation: what is measured and what is left behind -/

namespace MCT.Sens

open MCT.MP

set_option linter.unusedSimpArgs false
set_option linter.unusedVariables false

theorem addressed_iff {m : EvalModel} {k : Kind} {n : ℕ} {l : Layer} :
    Addressed m k n l ↔ firstOf k (layersOf m n) = some l := by
  unfold Addressed firstOf layersOf
  constructor
  · rintro ⟨hk, pre, post, h, hp⟩
    rw [h, Option.getD_some, List.find?_eq_some_iff_append]
    exact ⟨by simpa using hk, pre, post, rfl, fun x hx => by simpa using hp x hx⟩
  · intro h
    rcases ho : m.ofNode n with _ | ls
    · rw [ho] at h; simp at h
    · rw [ho, Option.getD_some, List.find?_eq_some_iff_append] at h
      obtain ⟨h1, pre, post, h2, h3⟩ := h
      exact ⟨by simpa using h1, pre, post, by rw [h2], fun x hx => by simpa using h3 x hx⟩

theorem lookup_iff {a : Cfg} (hn : a.keys.Nodup) {n : ℕ} {v : Option ℕ} :
    a.lookup n = some v ↔ (n, v) ∈ a := by
  induction a with
  | nil => simp
  | cons p a ih =>
    rcases p with ⟨x, y⟩
    simp only [Cfg.keys, List.map_cons, List.nodup_cons] at hn
    rw [List.lookup_cons]
    by_cases h : n = x
    · subst h
      simp only [beq_self_eq_true, if_true]
      constructor
      · intro e; simp at e; simp [e]
      · intro e
        rcases List.mem_cons.mp e with e | e
        · simp at e; simp [e]
        · exact absurd (List.mem_map.mpr ⟨_, e, rfl⟩) hn.1
    · have : (n == x) = false := by simpa using h
      rw [this]
      simp only [List.mem_cons, Prod.mk.injEq, h, false_and, false_or]
      exact ih hn.2

/-! ### The state after a request -/

theorem nodeState_other {ls : List Layer} {oa ow : Option (Option ℕ)} {st : State} {l : Layer}
    (ha : l.2 = .act → firstOf .act ls = some l → oa = none)
    (hw : l.2 = .wts → firstOf .wts ls = some l → ow = none) :
    nodeState ls oa ow st l = st l := by
  rcases l with ⟨i, k⟩
  cases k
  · simp only [nodeState, pick]
    split
    · rename_i h; rw [ha rfl h]
    · rfl
  · simp only [nodeState, pick]
    split
    · rename_i h; rw [hw rfl h]
    · rfl

/-- The dict read for a kind. -/
def ofKind (a w : Cfg) : Kind → Cfg
  | .act => a
  | .wts => w

theorem foldState_other (m : EvalModel) (a w : Cfg) (l : Layer) : ∀ (ns : List ℕ) (st : State),
    (∀ n ∈ ns, firstOf l.2 (layersOf m n) = some l → (ofKind a w l.2).lookup n = none) →
    foldState m a w ns st l = st l := by
  intro ns
  induction ns with
  | nil => intro st _; rfl
  | cons n ns ih =>
    intro st h
    simp only [foldState]
    rw [ih _ fun n' hn' => h n' (by simp [hn'])]
    have h0 := h n (by simp)
    apply nodeState_other
    · intro hk hf; rw [hk] at h0; exact h0 hf
    · intro hk hf; rw [hk] at h0; exact h0 hf

theorem nodeState_set {ls : List Layer} {a w : Cfg} {n : ℕ} {st : State} {l : Layer} {v : Option ℕ}
    (hf : firstOf l.2 ls = some l) (hv : (ofKind a w l.2).lookup n = some v) :
    nodeState ls (a.lookup n) (w.lookup n) st l = v := by
  rcases l with ⟨i, k⟩
  cases k
  · simp only [nodeState, pick]
    simp only [ofKind] at hv
    simp only at hf
    rw [hf, hv]; simp
  · simp only [nodeState, pick]
    simp only [ofKind] at hv
    simp only at hf
    rw [hf, hv]; simp

theorem owner_unique {m : EvalModel} (hs : Separate m) {k k' : Kind} {n n' : ℕ} {l : Layer}
    (h : firstOf k (layersOf m n) = some l) (h' : firstOf k' (layersOf m n') = some l) : n = n' := by
  have h1 := (firstOf_kind h).2
  have h2 := (firstOf_kind h').2
  unfold layersOf at h1 h2
  rcases e1 : m.ofNode n with _ | ls
  · rw [e1] at h1; simp at h1
  · rcases e2 : m.ofNode n' with _ | ls'
    · rw [e2] at h2; simp at h2
    · rw [e1] at h1; rw [e2] at h2
      exact hs n n' ls ls' l e1 e2 h1 h2

theorem foldState_set {m : EvalModel} (hs : Separate m) (a w : Cfg) {l : Layer} {n : ℕ} {v : Option ℕ}
    (hf : firstOf l.2 (layersOf m n) = some l) (hv : (ofKind a w l.2).lookup n = some v) :
    ∀ (ns : List ℕ) (st : State), ns.Nodup → n ∈ ns → foldState m a w ns st l = v := by
  intro ns
  induction ns with
  | nil => intro st _ h; simp at h
  | cons x ns ih =>
    intro st hnd hmem
    rw [List.nodup_cons] at hnd
    simp only [foldState]
    rcases List.mem_cons.mp hmem with e | hmem
    · subst e
      rw [foldState_other m a w l ns _ ?_]
      · exact nodeState_set hf hv
      · intro n' hn' hf'
        exact absurd (owner_unique hs hf hf' ▸ hn') hnd.1
    · exact ih _ hnd.2 hmem

theorem requested_iff {m : EvalModel} {a w : Cfg} (ha : a.keys.Nodup) (hw : w.keys.Nodup) {l : Layer}
    {v : Option ℕ} : Requested m a w l v ↔
      ∃ n, firstOf l.2 (layersOf m n) = some l ∧ (ofKind a w l.2).lookup n = some v := by
  unfold Requested
  constructor
  · rintro ⟨n, ⟨h1, h2⟩ | ⟨h1, h2⟩⟩
    · have hk := h2.1
      rw [addressed_iff] at h2
      refine ⟨n, by rw [hk]; exact h2, ?_⟩
      rw [hk]; exact (lookup_iff ha).mpr h1
    · have hk := h2.1
      rw [addressed_iff] at h2
      refine ⟨n, by rw [hk]; exact h2, ?_⟩
      rw [hk]; exact (lookup_iff hw).mpr h1
  · rintro ⟨n, h1, h2⟩
    refine ⟨n, ?_⟩
    rcases hk : l.2 with _ | _
    · rw [hk] at h1 h2
      exact Or.inl ⟨(lookup_iff ha).mp h2, addressed_iff.mpr h1⟩
    · rw [hk] at h1 h2
      exact Or.inr ⟨(lookup_iff hw).mp h2, addressed_iff.mpr h1⟩

/-- What a request does to the state: requested layers are set, the others keep their state. -/
theorem foldState_spec {m : EvalModel} (hs : Separate m) {a w : Cfg} (ha : a.keys.Nodup)
    (hw : w.keys.Nodup) {order : List ℕ} (ho : IsOrder a w order) (st : State) (l : Layer) :
    (∀ v, Requested m a w l v → foldState m a w order st l = v) ∧
      ((∀ v, ¬ Requested m a w l v) → foldState m a w order st l = st l) := by
  constructor
  · intro v hv
    obtain ⟨n, h1, h2⟩ := (requested_iff ha hw).mp hv
    refine foldState_set hs a w h1 h2 order st ho.nodup ?_
    rw [ho.mem]
    have : ((ofKind a w l.2).lookup n).isSome = true := by rw [h2]; rfl
    rcases hk : l.2 with _ | _
    · rw [hk] at this; exact Or.inl ((lookup_isSome a n).mp this)
    · rw [hk] at this; exact Or.inr ((lookup_isSome w n).mp this)
  · intro h
    apply foldState_other
    intro n hn hf
    rcases hl : (ofKind a w l.2).lookup n with _ | v
    · rfl
    · exact absurd ((requested_iff ha hw).mpr ⟨n, hf, hl⟩) (h v)

/-! ### When a request is accepted -/

theorem nodeOk_of_answerable {m : EvalModel} {a w : Cfg} (ha : a.keys.Nodup) (hw : w.keys.Nodup)
    (hA : Answerable m .act a) (hW : Answerable m .wts w) {n : ℕ} (hn : n ∈ a.keys ∨ n ∈ w.keys) :
    NodeOk m a w n := by
  refine ⟨?_, ?_, ?_⟩
  · rcases hn with hn | hn
    · obtain ⟨p, hp, e⟩ := List.mem_map.mp hn
      obtain ⟨l, hl, -⟩ := hA p.1 p.2 hp
      rw [e] at hl
      obtain ⟨-, pre, post, h, -⟩ := hl
      rw [h]; rfl
    · obtain ⟨p, hp, e⟩ := List.mem_map.mp hn
      obtain ⟨l, hl, -⟩ := hW p.1 p.2 hp
      rw [e] at hl
      obtain ⟨-, pre, post, h, -⟩ := hl
      rw [h]; rfl
  · intro l c h1 h2
    obtain ⟨l', hl', hc⟩ := hA n _ ((lookup_iff ha).mp h2)
    rw [addressed_iff, h1] at hl'
    cases hl'
    exact hc c rfl
  · intro l c h1 h2
    obtain ⟨l', hl', hc⟩ := hW n _ ((lookup_iff hw).mp h2)
    rw [addressed_iff, h1] at hl'
    cases hl'
    exact hc c rfl

theorem leftAll_nil_iff {m : EvalModel} {k : Kind} {order : List ℕ} {a : Cfg}
    (h : ∀ n ∈ a.keys, n ∈ order) :
    leftAll m k order a = [] ↔ ∀ n ∈ a.keys, (firstOf k (layersOf m n)).isSome = true := by
  rw [List.eq_nil_iff_forall_not_mem]
  constructor
  · intro hn n hk
    obtain ⟨p, hp, e⟩ := List.mem_map.mp hk
    by_contra hc
    exact hn p ((mem_leftAll m k order a p).mpr ⟨hp, fun h' => hc (e ▸ h'.2)⟩)
  · intro hn p hp
    rw [mem_leftAll] at hp
    have hk : p.1 ∈ a.keys := List.mem_map.mpr ⟨p, hp.1, rfl⟩
    exact hp.2 ⟨h _ hk, hn _ hk⟩

/-- A configuration is applied exactly when every entry addresses an existing quantizer and a
candidate of it. -/
theorem applyCfg_iff {m : EvalModel} {a w : Cfg} (ha : a.keys.Nodup) (hw : w.keys.Nodup)
    {order : List ℕ} (ho : IsOrder a w order) (st : State) :
    (Answerable m .act a ∧ Answerable m .wts w → applyCfg m order a w st = .ok (foldState m a w order st)) ∧
    (¬ (Answerable m .act a ∧ Answerable m .wts w) → ∃ st', applyCfg m order a w st = .error st') := by
  constructor
  · rintro ⟨hA, hW⟩
    unfold applyCfg
    rw [applyNodes_ok m order a w st ho.nodup
      (fun n hn => nodeOk_of_answerable ha hw hA hW ((ho.mem n).mp hn))]
    have e1 : leftAll m .act order a = [] := by
      rw [leftAll_nil_iff fun n hn => (ho.mem n).mpr (Or.inl hn)]
      intro n hn
      obtain ⟨p, hp, e⟩ := List.mem_map.mp hn
      obtain ⟨l, hl, -⟩ := hA p.1 p.2 hp
      rw [addressed_iff, e] at hl
      rw [hl]; rfl
    have e2 : leftAll m .wts order w = [] := by
      rw [leftAll_nil_iff fun n hn => (ho.mem n).mpr (Or.inr hn)]
      intro n hn
      obtain ⟨p, hp, e⟩ := List.mem_map.mp hn
      obtain ⟨l, hl, -⟩ := hW p.1 p.2 hp
      rw [addressed_iff, e] at hl
      rw [hl]; rfl
    simp [e1, e2]
  · intro hbad
    unfold applyCfg
    by_cases hok : ∀ n ∈ order, NodeOk m a w n
    · rw [applyNodes_ok m order a w st ho.nodup hok]
      simp only []
      split
      · rename_i h
        exfalso
        simp only [Bool.and_eq_true, List.isEmpty_iff] at h
        apply hbad
        obtain ⟨h1, h2⟩ := h
        rw [leftAll_nil_iff fun n hn => (ho.mem n).mpr (Or.inl hn)] at h1
        rw [leftAll_nil_iff fun n hn => (ho.mem n).mpr (Or.inr hn)] at h2
        constructor
        · intro n v hv
          have hk : n ∈ a.keys := List.mem_map.mpr ⟨_, hv, rfl⟩
          obtain ⟨l, hl⟩ := Option.isSome_iff_exists.mp (h1 n hk)
          refine ⟨l, addressed_iff.mpr hl, ?_⟩
          intro c hc
          exact (hok n ((ho.mem n).mpr (Or.inl hk))).2.1 l c hl (by rw [(lookup_iff ha).mpr hv, hc])
        · intro n v hv
          have hk : n ∈ w.keys := List.mem_map.mpr ⟨_, hv, rfl⟩
          obtain ⟨l, hl⟩ := Option.isSome_iff_exists.mp (h2 n hk)
          refine ⟨l, addressed_iff.mpr hl, ?_⟩
          intro c hc
          exact (hok n ((ho.mem n).mpr (Or.inr hk))).2.2 l c hl (by rw [(lookup_iff hw).mpr hv, hc])
      · exact ⟨_, rfl⟩
    · push Not at hok
      obtain ⟨st', h⟩ := applyNodes_error m order a w st ho.nodup hok
      rw [h]
      exact ⟨st', rfl⟩

theorem clear_keys (a : Cfg) : a.clear.keys = a.keys := by
  simp [Cfg.clear, Cfg.keys, Function.comp_def]

theorem mem_clear {a : Cfg} {n : ℕ} {v : Option ℕ} :
    (n, v) ∈ a.clear ↔ v = none ∧ n ∈ a.keys := by
  unfold Cfg.clear Cfg.keys
  simp only [List.mem_map, Prod.mk.injEq]
  constructor
  · rintro ⟨p, hp, h1, h2⟩; exact ⟨h2.symm, p, hp, h1⟩
  · rintro ⟨h1, p, hp, h2⟩; exact ⟨p, hp, h2, h1.symm⟩

theorem answerable_clear {m : EvalModel} {k : Kind} {a : Cfg} (h : Answerable m k a) :
    Answerable m k a.clear := by
  intro n v hv
  rw [mem_clear] at hv
  obtain ⟨p, hp, e⟩ := List.mem_map.mp hv.2
  obtain ⟨l, hl, -⟩ := h p.1 p.2 hp
  refine ⟨l, e ▸ hl, ?_⟩
  rw [hv.1]; simp

theorem isOrder_clear {a w : Cfg} {order : List ℕ} (h : IsOrder a w order) :
    IsOrder a.clear w.clear order :=
  ⟨h.nodup, by intro n; rw [clear_keys, clear_keys]; exact h.mem n⟩

theorem requested_clear {m : EvalModel} {a w : Cfg} {l : Layer} {v : Option ℕ}
    (h : Requested m a w l v) : Requested m a.clear w.clear l none := by
  obtain ⟨n, ⟨h1, h2⟩ | ⟨h1, h2⟩⟩ := h
  · exact ⟨n, Or.inl ⟨mem_clear.mpr ⟨rfl, List.mem_map.mpr ⟨_, h1, rfl⟩⟩, h2⟩⟩
  · exact ⟨n, Or.inr ⟨mem_clear.mpr ⟨rfl, List.mem_map.mpr ⟨_, h1, rfl⟩⟩, h2⟩⟩

theorem requested_of_clear {m : EvalModel} {a w : Cfg} {l : Layer} {v : Option ℕ}
    (h : Requested m a.clear w.clear l v) : v = none ∧ ∃ v', Requested m a w l v' := by
  obtain ⟨n, ⟨h1, h2⟩ | ⟨h1, h2⟩⟩ := h
  · rw [mem_clear] at h1
    obtain ⟨p, hp, e⟩ := List.mem_map.mp h1.2
    exact ⟨h1.1, p.2, n, Or.inl ⟨by rw [← e]; exact hp, h2⟩⟩
  · rw [mem_clear] at h1
    obtain ⟨p, hp, e⟩ := List.mem_map.mp h1.2
    exact ⟨h1.1, p.2, n, Or.inr ⟨by rw [← e]; exact hp, h2⟩⟩

variable {K : Type}

/-- **C102.** A call that addresses existing quantizers is measured with exactly the requested
quantizers active and every other quantizer disabled, and leaves every quantizer disabled, whether the
metric returns a value or raises. -/
theorem C102_evaluated (m : EvalModel) (hs : Separate m) (metric : State → Option K) (c : Call)
    (hc : GoodCall m c) :
    ∃ st, IsConfigured m c.a c.w st ∧
      evaluate m metric c.order c.order' c.a c.w off = (metric st, off) := by
  have h1 := (applyCfg_iff hc.keysA hc.keysW hc.order off).1 ⟨hc.act, hc.wts⟩
  set st := foldState m c.a c.w c.order off with hst
  have hkA : c.a.clear.keys.Nodup := by rw [clear_keys]; exact hc.keysA
  have hkW : c.w.clear.keys.Nodup := by rw [clear_keys]; exact hc.keysW
  have h2 := (applyCfg_iff hkA hkW (isOrder_clear hc.order') st).1
    ⟨answerable_clear hc.act, answerable_clear hc.wts⟩
  have hsp := foldState_spec hs hc.keysA hc.keysW hc.order off
  refine ⟨st, fun l => ⟨(hsp l).1, fun h => (hsp l).2 h⟩, ?_⟩
  unfold evaluate
  rw [hc.something, h1]
  simp only [if_true]
  rw [h2]
  simp only []
  congr 1
  funext l
  have hsp' := foldState_spec hs hkA hkW (isOrder_clear hc.order') st l
  by_cases hr : ∃ v, Requested m c.a c.w l v
  · obtain ⟨v, hv⟩ := hr
    exact hsp'.1 none (requested_clear hv)
  · push Not at hr
    rw [hsp'.2 fun v hv => by
      obtain ⟨-, v', hv'⟩ := requested_of_clear hv
      exact hr v' hv']
    exact (hsp l).2 hr

/-- The state in which a request has to be measured is unique. -/
theorem isConfigured_unique {m : EvalModel} {a w : Cfg} {st st' : State} (h : IsConfigured m a w st)
    (h' : IsConfigured m a w st') : st = st' := by
  funext l
  by_cases hr : ∃ v, Requested m a w l v
  · obtain ⟨v, hv⟩ := hr
    rw [(h l).1 v hv, (h' l).1 v hv]
  · push Not at hr
    rw [(h l).2 hr, (h' l).2 hr]

/-- **C102.** In every sequence of such calls, also after calls whose metric raised, each value is the
metric of the model configured for this call alone, and all quantizers are disabled at the end. -/
theorem C102_history (m : EvalModel) (hs : Separate m) (metric : State → Option K) (cs : List Call)
    (hc : ∀ c ∈ cs, GoodCall m c) :
    List.Forall₂ (fun c r => ∃ st, IsConfigured m c.a c.w st ∧ r = metric st) cs
      (evaluateAll m metric cs off).1 ∧ (evaluateAll m metric cs off).2 = off := by
  induction cs with
  | nil => exact ⟨List.Forall₂.nil, rfl⟩
  | cons c cs ih =>
    obtain ⟨st, h1, h2⟩ := C102_evaluated m hs metric c (hc c (by simp))
    obtain ⟨i1, i2⟩ := ih fun c' h' => hc c' (by simp [h'])
    simp only [evaluateAll, h2]
    exact ⟨List.Forall₂.cons ⟨st, h1, rfl⟩ i1, i2⟩

/-- **C102.** With a metric that does not raise, a call is answered exactly when it requests something
and every entry addresses an existing quantizer and a candidate of it. -/
theorem C102_answered_iff (m : EvalModel) (metric : State → Option K) (hm : ∀ st, (metric st).isSome)
    (c : Call) (ha : c.a.keys.Nodup) (hw : c.w.keys.Nodup) (ho : IsOrder c.a c.w c.order)
    (ho' : IsOrder c.a c.w c.order') (st : State) :
    (evaluate m metric c.order c.order' c.a c.w st).1.isSome = true ↔
      requestsSomething c.a c.w = true ∧ Answerable m .act c.a ∧ Answerable m .wts c.w := by
  have h := applyCfg_iff (m := m) ha hw ho st
  unfold evaluate
  by_cases hr : requestsSomething c.a c.w = true
  · rw [hr]
    simp only [if_true, true_and]
    by_cases hA : Answerable m .act c.a ∧ Answerable m .wts c.w
    · rw [h.1 hA]
      simp only []
      rw [(applyCfg_iff (by rw [clear_keys]; exact ha) (by rw [clear_keys]; exact hw)
        (isOrder_clear ho') _).1 ⟨answerable_clear hA.1, answerable_clear hA.2⟩]
      simp [hm, hA]
    · obtain ⟨st', h'⟩ := h.2 hA
      rw [h']
      simp [hA]
  · simp only [Bool.not_eq_true] at hr
    rw [hr]; simp

end MCT.Sens
