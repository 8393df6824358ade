/- Which samples the scores of a request belong to. -/
import Verif.Hessian.Fetch

namespace MCT.Hessian
open HessianSpec

set_option linter.unusedVariables false
set_option linter.unusedSectionVars false

variable {N S V : Type} [DecidableEq N]

namespace HessianSpec

/-- A score that is a function of the layer and the sample. -/
def perSample (h : Query N → S → V) : ℕ → Query N → List S → List V := fun _ q b => b.map (h q)

end HessianSpec

theorem rowsFrom_perSample (h : Query N → S → V) (t : ℕ) (q : Query N) (bs : List (List S)) :
    rowsFrom (perSample h) t q bs = bs.flatten.map (h q) := by
  induction bs generalizing t with
  | nil => rfl
  | cons b bs ih => simp [rowsFrom, ih, perSample]

theorem mapM_primary {nodes ts : List (HNode N)} (h : ∀ x ∈ ts, ∃ p, primary nodes x = some p) :
    ∃ prims, ts.mapM (primary nodes) = some prims ∧ prims.length = ts.length := by
  induction ts with
  | nil => exact ⟨[], rfl, rfl⟩
  | cons a l ih =>
    obtain ⟨p, hp⟩ := h a (by simp)
    obtain ⟨ps, h1, h2⟩ := ih (fun x hx => h x (by simp [hx]))
    exact ⟨p :: ps, by rw [List.mapM_cons, hp, h1]; rfl, by simp [h2]⟩

theorem take_of_prefix {A : Type} {bs : List (List A)} {k n : ℕ}
    (h : k < bs.length → n ≤ (bs.take k).flatten.length) : (bs.take k).flatten.take n = bs.flatten.take n := by
  by_cases hk : k < bs.length
  · have : bs.flatten = (bs.take k).flatten ++ (bs.drop k).flatten := by
      rw [← List.flatten_append, List.take_append_drop]
    rw [this, List.take_append_of_le_length (h hk)]
  · rw [List.take_of_length_le (i := k) (l := bs) (by omega)]

theorem compute_force_names (h : Query N → S → V) (m : Mode) (g : Gran) (names : List N) (hne : names ≠ [])
    (bs : List (List S)) (st : St N S V) :
    (∀ n, 0 < n → (compute (perSample h) m g names (some n) false (some bs) st).2 =
      if n ≤ bs.flatten.length then some (names.map (fun x => (x, (bs.flatten.take n).map (h ⟨m, g, x⟩)))) else none) ∧
    (bs ≠ [] → (compute (perSample h) m g names none false (some bs) st).2 =
      some (names.map (fun x => (x, bs.flatten.map (h ⟨m, g, x⟩))))) := by
  constructor
  · intro n hn
    obtain ⟨k, c', acc', hk, hloop, hrows, hlen, hc, hstop, _⟩ :=
      computeLoop_spec (perSample h) m g names hne (some n) false bs st 0 []
    simp only [Bool.false_eq_true, if_false, Nat.zero_add, Option.getD_some] at hc hstop
    unfold compute
    simp only [hloop, List.nil_append]
    have hrow : ∀ x, (acc'.flatMap fun f => f x) = (bs.take k).flatten.map (h ⟨m, g, x⟩) := by
      intro x; rw [hrows, rowsFrom_perSample]
    simp only [hrow]
    have htot : ¬ k < bs.length → bs.take k = bs := fun hh => List.take_of_length_le (by omega)
    by_cases hemp : (acc'.isEmpty && !names.isEmpty) = true
    · rw [if_pos hemp]
      have hk0 : k = 0 := by
        simp at hemp
        rw [hemp.1] at hlen; simpa using hlen.symm
      subst hk0
      have : bs = [] := by
        by_contra hb
        have := (hstop (List.length_pos_iff.mpr hb)).2
        rw [hc] at this
        simp at this; omega
      subst this
      rw [if_neg (by simp; omega)]
    · rw [if_neg hemp]
      simp only [Option.getD_some]
      rw [if_pos (by omega)]
      by_cases hlt : c' < n
      · rw [if_pos hlt]
        have hkl : ¬ k < bs.length := fun hh => by have := (hstop hh).2; omega
        rw [htot hkl] at hc
        rw [if_neg (by omega)]
      · rw [if_neg hlt]
        have hle : n ≤ bs.flatten.length := by
          have h1 : (bs.take k).flatten.length ≤ bs.flatten.length := by
            have : bs.flatten = (bs.take k).flatten ++ (bs.drop k).flatten := by
              rw [← List.flatten_append, List.take_append_drop]
            rw [this, List.length_append]; omega
          omega
        rw [if_pos hle]
        have htake := take_of_prefix (bs := bs) (k := k) (n := n) (fun hh => by have := (hstop hh).2; omega)
        split_ifs with hgt
        · simp only [List.map_map, Option.some.injEq]
          apply List.map_congr_left
          intro x _
          simp only [Function.comp]
          rw [← List.map_take, htake]
        · simp only [Option.some.injEq]
          apply List.map_congr_left
          intro x _
          rw [← htake, List.take_of_length_le (i := n) (l := (bs.take k).flatten) (by omega)]
  · intro hb
    obtain ⟨k, c', acc', hk, hloop, hrows, hlen, hc, hstop, _⟩ :=
      computeLoop_spec (perSample h) m g names hne none false bs st 0 []
    have hkl : k = bs.length := by
      by_contra hh
      have := (hstop (by omega)).1
      simp at this
    unfold compute
    simp only [hloop, List.nil_append]
    have hrow : ∀ x, (acc'.flatMap fun f => f x) = bs.flatten.map (h ⟨m, g, x⟩) := by
      intro x; rw [hrows, rowsFrom_perSample, hkl, List.take_length]
    simp only [hrow]
    rw [if_neg, if_neg (by simp)]
    intro hemp
    simp at hemp
    rw [hemp.1] at hlen
    simp at hlen
    rw [hkl] at hlen
    exact hb (List.length_eq_zero_iff.mp hlen.symm)

/-- **C95** a forced request answers with the scores of the samples of its data loader, whatever was computed
before: of the first `n` samples, in their order, when it asks for `n`, and it fails when there are fewer; of all
samples when it does not say how many. -/
theorem C95_force (h : Query N → S → V) (nodes : List (HNode N)) (r : Req N S) (bs : List (List S))
    (hl : r.loader = some bs) (ht : r.targets ≠ []) (hp : ∀ x ∈ r.targets, ∃ p, primary nodes x = some p)
    (st : St N S V) :
    (∀ n, r.n = some n → 0 < n → n ≤ bs.flatten.length →
      ∃ res, (fetch (perSample h) nodes true r st).2 = some res ∧
        List.Forall₂ (fun x e => ∃ p, primary nodes x = some p ∧
          e = (x.name, (bs.flatten.take n).map (h ⟨r.mode, r.gran, p.name⟩))) r.targets res) ∧
    (∀ n, r.n = some n → bs.flatten.length < n → (fetch (perSample h) nodes true r st).2 = none) ∧
    (r.n = none → bs ≠ [] →
      ∃ res, (fetch (perSample h) nodes true r st).2 = some res ∧
        List.Forall₂ (fun x e => ∃ p, primary nodes x = some p ∧
          e = (x.name, bs.flatten.map (h ⟨r.mode, r.gran, p.name⟩))) r.targets res) := by
  obtain ⟨prims, hprims, hlen⟩ := mapM_primary hp
  have hne : prims.map (·.name) ≠ [] := by
    intro hh
    rw [List.map_eq_nil_iff] at hh
    rw [hh] at hlen
    exact ht (List.length_eq_zero_iff.mp hlen.symm)
  obtain ⟨c1, c2⟩ := compute_force_names h r.mode r.gran (prims.map (·.name)) hne bs st
  have hsnd : (fetch (perSample h) nodes true r st).2 =
      ((compute (perSample h) r.mode r.gran (prims.map (·.name)) r.n false r.loader st).2).bind
        (restoreNames r.targets prims) := by
    unfold fetch
    rw [if_neg (by simp [hl]), if_neg (by simp), hprims]
    simp only [answer, if_true]
    generalize compute (perSample h) r.mode r.gran (prims.map (·.name)) r.n false r.loader st = a
    obtain ⟨s, _ | x⟩ := a <;> rfl
  rw [hsnd, hl]
  have fin : ∀ (ss : List S), ∃ res,
      restoreNames r.targets prims ((prims.map (·.name)).map (fun x => (x, ss.map (h ⟨r.mode, r.gran, x⟩)))) = some res ∧
        List.Forall₂ (fun x e => ∃ p, primary nodes x = some p ∧
          e = (x.name, ss.map (h ⟨r.mode, r.gran, p.name⟩))) r.targets res := by
    intro ss
    obtain ⟨h1, h2⟩ := restore nodes r.targets prims hprims (fun x => ss.map (h ⟨r.mode, r.gran, x⟩))
    refine ⟨_, h1, (forall₂_zip h2 _).imp ?_⟩
    rintro x e ⟨p, h1, _, h2⟩
    exact ⟨p, h1, h2⟩
  refine ⟨?_, ?_, ?_⟩
  · intro n hn h0 hle
    rw [hn, c1 n h0, if_pos hle]
    exact fin _
  · intro n hn hlt
    rw [hn, c1 n (by omega), if_neg (by omega)]; rfl
  · intro hn hb
    rw [hn, c2 hb]
    exact fin _

example : (fetch (perSample fun q s => (q.node, s)) nodesW true (reqW nodesW [[10, 11], [12]] 2)
      (fetch scoreW nodesW false (reqW nodesW [[5]] 1) St.empty).1).2 =
    some [(0, [(0, 10), (0, 11)]), (1, [(1, 10), (1, 11)]), (2, [(0, 10), (0, 11)])] := by decide +kernel

/-- **C95** is false for a forced request of zero samples: it answers with all of them. -/
theorem C95_zero_samples_violated :
    (fetch scoreW nodesW true (reqW [⟨1, false, none⟩] [[10, 11], [12]] 0) St.empty).2 =
      some [(1, [(1, 10), (1, 11), (1, 12)])] := by decide +kernel

/-! ### The same samples for all layers -/

/-- A request when all its layers have rows of the same samples. -/
theorem fetch_common (h : Query N → S → V) {st : St N S V} (hi : Inv (perSample h) st) (m : Mode) (g : Gran)
    (names : List N) (hne : names ≠ []) (ss : List S)
    (hss : ∀ x ∈ names, recorded (perSample h) st.log ⟨m, g, x⟩ = ss.map (h ⟨m, g, x⟩))
    (n : ℕ) (hn : 0 < n) (bs : List (List S)) :
    ∃ st', Inv (perSample h) st' ∧
      (if n ≤ (ss ++ bs.flatten).length then
        fetchWithCompute (perSample h) m g names n (some bs) st =
          (st', some (names.map (fun x => (x, ((ss ++ bs.flatten).take n).map (h ⟨m, g, x⟩)))))
      else fetchWithCompute (perSample h) m g names n (some bs) st = (st', none) ∧
        ∀ x ∈ names, recorded (perSample h) st'.log ⟨m, g, x⟩ = (ss ++ bs.flatten).map (h ⟨m, g, x⟩)) := by
  have hinlog : ∀ (s : St N S V), Inv (perSample h) s → ∀ q, 0 < (recorded (perSample h) s.log q).length →
      ∃ e ∈ s.log, e.1 = q := by
    intro s hs q hq
    rw [← (hs q).2]
    rw [← (hs q).1] at hq
    cases hc : s.cache q with
    | none => rw [hc] at hq; simp at hq
    | some v => rfl
  by_cases hcase : n ≤ ss.length
  · -- enough rows
    have hm : (missing st m g names n).isEmpty = true := by
      rw [List.isEmpty_iff, List.eq_nil_iff_forall_not_mem]
      intro x hx
      obtain ⟨hx, hh⟩ := (mem_missing (perSample h) hi _ _ _ _ _).mp hx
      have hl : (recorded (perSample h) st.log ⟨m, g, x⟩).length = ss.length := by rw [hss x hx]; simp
      rcases hh with hh | hh
      · exact hh (hinlog st hi _ (by omega))
      · omega
    refine ⟨st, hi, ?_⟩
    rw [if_pos (by rw [List.length_append]; omega)]
    unfold fetchWithCompute
    rw [if_pos hm, (cached_of_not_missing (perSample h) hi m g names n hm).1]
    congr 2
    apply List.map_congr_left
    intro x hx
    rw [hss x hx, List.take_append_of_le_length hcase, List.map_take]
  · have hmiss : ∀ x, x ∈ missing st m g names n ↔ x ∈ names := by
      intro x
      rw [mem_missing (perSample h) hi]
      refine ⟨fun hh => hh.1, fun hx => ⟨hx, Or.inr ?_⟩⟩
      rw [hss x hx]; simp; omega
    have htodo : todo st m g names n = names := by
      unfold todo
      split_ifs
      · rfl
      · rw [List.filter_eq_self]
        intro x hx
        simp [hmiss x, hx]
    have hm : ¬ (missing st m g names n).isEmpty = true := by
      rw [List.isEmpty_iff]
      intro hh
      obtain ⟨x, hx⟩ := List.exists_mem_of_ne_nil _ hne
      have := (hmiss x).mpr hx
      rw [hh] at this; simp at this
    obtain ⟨k, c', acc', hk, hloop, hrows, hlen, hc, hstop, _⟩ :=
      computeLoop_spec (perSample h) m g names hne (some n) true bs st 0 []
    simp only [Option.getD_some, if_true] at hc hstop
    set st' := advance (perSample h) m g names (bs.take k) st with hst'
    have hi' : Inv (perSample h) st' := advance_inv (perSample h) hi
    have hrec : ∀ x ∈ names, recorded (perSample h) st'.log ⟨m, g, x⟩ =
        (ss ++ (bs.take k).flatten).map (h ⟨m, g, x⟩) := by
      intro x hx
      obtain ⟨new, h1, h2, _⟩ := advance_log (perSample h) m g names (bs.take k) st
      rw [hst', h1, recorded_append, h2, if_pos ⟨rfl, rfl, hx⟩, hss x hx, rowsFrom_perSample, List.map_append]
    have hcount : ∀ x ∈ names, count st' ⟨m, g, x⟩ = ss.length + (bs.take k).flatten.length := by
      intro x hx
      rw [count_eq, (hi' _).1, hrec x hx, List.length_map, List.length_append]
    have hc' : c' = if k = 0 then 0 else ss.length + (bs.take k).flatten.length := by
      rw [hc]
      split_ifs
      · rfl
      · obtain ⟨c, hcc⟩ := minCount_isSome st' m g names hne
        obtain ⟨_, y, hy, he⟩ := minCount_spec _ _ _ _ _ hcc
        rw [hcc, Option.getD_some, he, hcount y hy]
    have hsplit : bs.flatten = (bs.take k).flatten ++ (bs.drop k).flatten := by
      rw [← List.flatten_append, List.take_append_drop]
    have hpre : (bs.take k).flatten.length ≤ bs.flatten.length := by
      rw [hsplit, List.length_append]; omega
    have htot : ¬ k < bs.length → bs.take k = bs := fun hh => List.take_of_length_le (by omega)
    have hcomp : ∀ (hkp : 0 < k) (hge : n ≤ ss.length + (bs.take k).flatten.length),
        ∃ r, compute (perSample h) m g names (some n) true (some bs) st = (st', some r) := by
      intro hkp hge
      unfold compute
      simp only [hloop, List.nil_append, Option.getD_some]
      rw [if_neg (by
        intro hemp
        simp at hemp
        rw [hemp.1] at hlen
        simp at hlen
        omega)]
      rw [if_pos (by omega), if_neg (by rw [hc', if_neg (by omega)]; omega)]
      split_ifs <;> exact ⟨_, rfl⟩
    refine ⟨st', hi', ?_⟩
    by_cases hge : n ≤ ss.length + (bs.take k).flatten.length
    · have hkp : 0 < k := by
        rcases Nat.eq_zero_or_pos k with hk0 | hk0
        · subst hk0; simp at hge; omega
        · exact hk0
      rw [if_pos (by rw [List.length_append]; omega)]
      unfold fetchWithCompute
      obtain ⟨r, hr⟩ := hcomp hkp hge
      rw [if_neg hm, if_neg (by simp), htodo, hr]
      simp only
      have hm' : (missing st' m g names n).isEmpty = true := by
        rw [List.isEmpty_iff, List.eq_nil_iff_forall_not_mem]
        intro x hx
        obtain ⟨hx, hh⟩ := (mem_missing (perSample h) hi' _ _ _ _ _).mp hx
        have hl : (recorded (perSample h) st'.log ⟨m, g, x⟩).length = ss.length + (bs.take k).flatten.length := by
          rw [hrec x hx, List.length_map, List.length_append]
        rcases hh with hh | hh
        · exact hh (hinlog st' hi' _ (by omega))
        · omega
      rw [if_pos hm', (cached_of_not_missing (perSample h) hi' m g names n hm').1]
      congr 2
      apply List.map_congr_left
      intro x hx
      rw [hrec x hx, hsplit, ← List.map_take, ← List.append_assoc,
        List.take_append_of_le_length (l₁ := ss ++ (bs.take k).flatten) (by rw [List.length_append]; omega)]
    · -- not enough samples
      have hkl : ¬ k < bs.length := by
        intro hh
        have := (hstop hh).2
        rw [hc'] at this
        split_ifs at this <;> omega
      rw [if_neg (by rw [List.length_append]; rw [htot hkl] at hge; omega)]
      constructor
      · unfold fetchWithCompute
        rw [if_neg hm, if_neg (by simp), htodo]
        have : compute (perSample h) m g names (some n) true (some bs) st = (st', none) := by
          unfold compute
          simp only [hloop, List.nil_append, Option.getD_some]
          have hlt : c' < n := by rw [hc']; split_ifs <;> omega
          by_cases h1 : (acc'.isEmpty && !names.isEmpty) = true
          · rw [if_pos h1]
          · rw [if_neg h1, if_pos (by omega), if_pos hlt]
        rw [this]
      · intro x hx
        rw [hrec x hx, htot hkl]

theorem fetch_snd {h : Query N → S → V} {nodes : List (HNode N)} {r : Req N S} {n : ℕ} (hn : r.n = some n)
    {prims : List (HNode N)} (hp : r.targets.mapM (primary nodes) = some prims) (st : St N S V) :
    fetch (perSample h) nodes false r st =
      ((fetchWithCompute (perSample h) r.mode r.gran (prims.map (·.name)) n r.loader st).1,
        ((fetchWithCompute (perSample h) r.mode r.gran (prims.map (·.name)) n r.loader st).2).bind
          (restoreNames r.targets prims)) := by
  unfold fetch
  rw [if_neg (by simp [hn]), if_neg (by simp [hn]), hp]
  simp only [answer, Bool.false_eq_true, if_false, hn, Option.getD_some]
  generalize fetchWithCompute (perSample h) r.mode r.gran (prims.map (·.name)) n r.loader st = a
  obtain ⟨s, _ | x⟩ := a <;> rfl

/-- **C96** (partial): when the requested layers have so far been computed on the same samples `ss` (in
particular when none of them was), a request answers with the scores of the same `n` samples for every layer:
the first of `ss` followed by those of the data loader.  In general this is false:
`C96_other_samples_violated`. -/
theorem C96_same_samples_partial (h : Query N → S → V) (nodes : List (HNode N)) (ops : List (Op N S)) (r : Req N S)
    (n : ℕ) (hn : r.n = some n) (h0 : 0 < n) (bs : List (List S)) (hl : r.loader = some bs)
    (hp : ∀ x ∈ r.targets, ∃ p, primary nodes x = some p) (ht : r.targets ≠ []) (ss : List S)
    (hss : ∀ x ∈ r.targets, ∀ p, primary nodes x = some p →
      recorded (perSample h) (run (perSample h) nodes St.empty ops).log ⟨r.mode, r.gran, p.name⟩ =
        ss.map (h ⟨r.mode, r.gran, p.name⟩)) :
    (n ≤ ss.length + bs.flatten.length →
      ∃ res, (fetch (perSample h) nodes false r (run (perSample h) nodes St.empty ops)).2 = some res ∧
        List.Forall₂ (fun x e => ∃ p, primary nodes x = some p ∧
          e = (x.name, ((ss ++ bs.flatten).take n).map (h ⟨r.mode, r.gran, p.name⟩))) r.targets res) ∧
    (ss.length + bs.flatten.length < n →
      (fetch (perSample h) nodes false r (run (perSample h) nodes St.empty ops)).2 = none) := by
  obtain ⟨prims, hprims, hlen⟩ := mapM_primary hp
  have hne : prims.map (·.name) ≠ [] := by
    intro hh
    rw [List.map_eq_nil_iff] at hh
    rw [hh] at hlen
    exact ht (List.length_eq_zero_iff.mp hlen.symm)
  obtain ⟨h1, h2⟩ := restore nodes r.targets prims hprims
    (fun x => ((ss ++ bs.flatten).take n).map (h ⟨r.mode, r.gran, x⟩))
  have hss' : ∀ x ∈ prims.map (·.name),
      recorded (perSample h) (run (perSample h) nodes St.empty ops).log ⟨r.mode, r.gran, x⟩ =
        ss.map (h ⟨r.mode, r.gran, x⟩) := by
    intro y hy
    obtain ⟨p, hpm, rfl⟩ := List.mem_map.mp hy
    obtain ⟨x, hx, hxp⟩ : ∃ x ∈ r.targets, primary nodes x = some p := by
      generalize r.targets = ts at h2
      clear * - h2 hpm
      induction h2 with
      | nil => simp at hpm
      | cons hab _ ih =>
        rcases List.mem_cons.mp hpm with rfl | hpm
        · exact ⟨_, by simp, hab⟩
        · obtain ⟨x, hx, h⟩ := ih hpm
          exact ⟨x, by simp [hx], h⟩
    exact hss x hx p hxp
  obtain ⟨st', _, hf⟩ := fetch_common h (run_inv (perSample h) nodes ops _ (inv_empty (perSample h))) r.mode r.gran
    (prims.map (·.name)) hne ss hss' n h0 bs
  rw [fetch_snd hn hprims, hl]
  rw [List.length_append] at hf
  constructor
  · intro hle
    rw [if_pos hle] at hf
    rw [hf]
    refine ⟨_, h1, (forall₂_zip h2 _).imp ?_⟩
    rintro x e ⟨p, h1, _, h2⟩
    exact ⟨p, h1, h2⟩
  · intro hlt
    rw [if_neg (by omega)] at hf
    rw [hf.1]; rfl

example : (fetch scoreW nodesW false (reqW [⟨0, false, some 7⟩, ⟨1, false, none⟩] [[20], [21, 22]] 3)
      (run scoreW nodesW St.empty [.fetch false (reqW nodesW [[10]] 1)])).2 =
    some [(0, [(0, 10), (0, 20), (0, 21)]), (1, [(1, 10), (1, 20), (1, 21)])] := by decide +kernel

/-- **C96** is false after a request for some of the layers: the second row of layer 0 belongs to sample 10 and
that of layer 1 to sample 11. -/
theorem C96_other_samples_violated :
    (fetch scoreW nodesW false (reqW [⟨0, false, some 7⟩, ⟨1, false, none⟩] [[10], [11]] 2)
      (run scoreW nodesW St.empty [.fetch false (reqW [⟨0, false, some 7⟩] [[10], [11]] 1)])).2 =
    some [(0, [(0, 10), (0, 10)]), (1, [(1, 10), (1, 11)])] := by decide +kernel

/-- **C96**, that the rows belong to different samples, is false after a failure: a request for more samples than
the data loader has fails, and the same request made again succeeds with the samples counted twice — for every
score, layers, data loader and number of samples up to twice as many as there are. -/
theorem C96_retry_violated (h : Query N → S → V) (nodes : List (HNode N)) (r : Req N S)
    (n : ℕ) (hn : r.n = some n) (bs : List (List S)) (hl : r.loader = some bs)
    (hp : ∀ x ∈ r.targets, ∃ p, primary nodes x = some p) (ht : r.targets ≠ [])
    (hlt : bs.flatten.length < n) (hle : n ≤ 2 * bs.flatten.length) :
    (fetch (perSample h) nodes false r (St.empty : St N S V)).2 = none ∧
    ∃ res, (fetch (perSample h) nodes false r (fetch (perSample h) nodes false r (St.empty : St N S V)).1).2 = some res ∧
        List.Forall₂ (fun x e => ∃ p, primary nodes x = some p ∧
          e = (x.name, ((bs.flatten ++ bs.flatten).take n).map (h ⟨r.mode, r.gran, p.name⟩))) r.targets res := by
  obtain ⟨prims, hprims, hlen⟩ := mapM_primary hp
  have hne : prims.map (·.name) ≠ [] := by
    intro hh
    rw [List.map_eq_nil_iff] at hh
    rw [hh] at hlen
    exact ht (List.length_eq_zero_iff.mp hlen.symm)
  obtain ⟨h1, h2⟩ := restore nodes r.targets prims hprims
    (fun x => ((bs.flatten ++ bs.flatten).take n).map (h ⟨r.mode, r.gran, x⟩))
  obtain ⟨st', hi', hf⟩ := fetch_common h (inv_empty (perSample h)) r.mode r.gran
    (prims.map (·.name)) hne [] (by intro x _; rfl) n (by omega) bs
  rw [if_neg (by rw [List.nil_append]; omega)] at hf
  obtain ⟨hf, hrec⟩ := hf
  obtain ⟨st2, _, hf2⟩ := fetch_common h hi' r.mode r.gran (prims.map (·.name)) hne bs.flatten
    (by simpa using hrec) n (by omega) bs
  rw [if_pos (by rw [List.length_append]; omega)] at hf2
  have e1 : fetch (perSample h) nodes false r (St.empty : St N S V) = (st', none) := by
    rw [fetch_snd hn hprims, hl, hf]; rfl
  rw [e1]
  refine ⟨rfl, ?_⟩
  simp only
  rw [fetch_snd hn hprims, hl, hf2]
  refine ⟨_, h1, (forall₂_zip h2 _).imp ?_⟩
  rintro x e ⟨p, h1, _, h2⟩
  exact ⟨p, h1, h2⟩

example : (fetch scoreW nodesW false (reqW [⟨1, false, none⟩] [[10], [11]] 3)
      (fetch scoreW nodesW false (reqW [⟨1, false, none⟩] [[10], [11]] 3) St.empty).1).2 =
    some [(1, [(1, 10), (1, 11), (1, 10)])] := by decide +kernel

end MCT.Hessian
